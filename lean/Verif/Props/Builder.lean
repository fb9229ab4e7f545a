import Verif.Spec.Builder
import Verif.Proofs.MathSet
import Verif.Props.MathSet
/-
C68: set-builder definitions of intervals.
-/
namespace MSets

/-- the inner item, if there is one, is closed -/
def BVal.closed : BVal → Bool
  | .plain _ => true
  | .wrap i => !i.compl

theorem BVal.eq_num {u v : BVal} {a b : Num} (hu : u.num? = some a) (hv : v.num? = some b) (cu : u.closed = true) (cv : v.closed = true) (ha : a ≠ .nan) (hb : b ≠ .nan) (hne : a.pos ≠ b.pos) : u.eq v = false := by
  have key : a.eq b = false := by rw [Bool.eq_false_iff]; intro h; exact hne ((eq_iff ha hb).1 h)
  have key' : b.eq a = false := by rw [Bool.eq_false_iff]; intro h; exact hne ((eq_iff hb ha).1 h).symm
  cases u with
  | plain p => cases p with
    | var s => simp [BVal.num?] at hu
    | num n =>
      simp only [BVal.num?, Option.some.injEq] at hu; subst hu
      cases v with
      | plain q => cases q with
        | var s => simp [BVal.num?] at hv
        | num m => simp only [BVal.num?, Option.some.injEq] at hv; subst hv; simpa [BVal.eq, IVal.eq] using key
      | wrap j => obtain ⟨q, c⟩ := j; cases q with
        | var s => simp [BVal.num?] at hv
        | num m =>
          simp only [BVal.num?, Option.some.injEq] at hv; subst hv
          simp only [BVal.closed, Bool.not_eq_true'] at cv
          simp [BVal.eq, IVal.eq, cv, key']
  | wrap i => obtain ⟨p, c⟩ := i; cases p with
    | var s => simp [BVal.num?] at hu
    | num n =>
      simp only [BVal.num?, Option.some.injEq] at hu; subst hu
      simp only [BVal.closed, Bool.not_eq_true'] at cu
      cases v with
      | plain q => cases q with
        | var s => simp [BVal.num?] at hv
        | num m => simp only [BVal.num?, Option.some.injEq] at hv; subst hv; simp [BVal.eq, IVal.eq, cu, key]
      | wrap j => obtain ⟨q, c'⟩ := j; cases q with
        | var s => simp [BVal.num?] at hv
        | num m =>
          simp only [BVal.num?, Option.some.injEq] at hv; subst hv
          simp only [BVal.closed, Bool.not_eq_true'] at cv
          simp [BVal.eq, Item.eq, IVal.eq, cu, cv, key]

/-- number limits: membership -/
theorem built_contains (lo hi : BItem) (a b x : Num) (int compl : Bool) (d : Option Dict) (hlo : lo.val.num? = some a) (hhi : hi.val.num? = some b) (cl : lo.val.closed = true) (ch : hi.val.closed = true)
    (hab : a.pos < b.pos ∨ (a.pos ≤ b.pos ∧ lo.compl = false ∧ hi.compl = false)) (ha : a ≠ .nan) (hb : b ≠ .nan) (hx : ∃ q, x.rat = some q) :
    ∃ r, (mkBuilt (some lo) (some hi) int compl).contains x d = .ok (if compl then !r else r) ∧
      (r = true ↔ (int = true → x.isInteger) ∧ (if lo.compl then a.pos < x.pos else a.pos ≤ x.pos) ∧ (if hi.compl then x.pos < b.pos else x.pos ≤ b.pos)) := by
  have hxn : x ≠ .nan := by rintro rfl; obtain ⟨q, hq⟩ := hx; simp [Num.rat] at hq
  have hle : a.pos ≤ b.pos := by rcases hab with h | h; exact h.le; exact h.1
  have hgt : lo.gt hi = false := by
    simp only [BItem.gt, hlo, hhi]
    rw [Bool.eq_false_iff]; intro h; rw [lt_iff hb ha] at h; exact absurd hle (not_le.2 h)
  have hmk : mkBuilt (some lo) (some hi) int compl = { lower := lo, upper := hi, lowerLt := lo.compl, upperGt := hi.compl, int := int, compl := compl } := by
    rcases hab with h | ⟨_, h1, h2⟩
    · have := BVal.eq_num hhi hlo ch cl hb ha (ne_of_gt h)
      simp [mkBuilt, hgt, this]
    · simp [mkBuilt, hgt, h1, h2]
  have hlow : (lo.val.subst d).below lo.compl x = .ok (if lo.compl then a.lt x else a.le x) := by
    revert hlo; cases lo.val with
    | plain v => cases v <;> simp [BVal.num?, BVal.subst, BVal.below]; rintro rfl; rfl
    | wrap i => cases i with | mk v c => cases v <;> simp [BVal.num?, BVal.subst, BVal.below]; rintro rfl; rfl
  have hup : (hi.val.subst d).above hi.compl x = .ok (if hi.compl then x.lt b else x.le b) := by
    revert hhi; cases hi.val with
    | plain v => cases v <;> simp [BVal.num?, BVal.subst, BVal.above]; rintro rfl; rfl
    | wrap i => cases i with | mk v c => cases v <;> simp [BVal.num?, BVal.subst, BVal.above]; rintro rfl; rfl
  have hops : BInterval.ops { lower := lo, upper := hi, lowerLt := lo.compl, upperGt := hi.compl, int := int, compl := compl } x d =
      .ok ((if lo.compl then a.lt x else a.le x) && (if hi.compl then x.lt b else x.le b)) := by
    simp only [BInterval.ops, hlow, hup]
    cases (if lo.compl then a.lt x else a.le x) <;> simp
  have hiff : ((if lo.compl then a.lt x else a.le x) && (if hi.compl then x.lt b else x.le b)) = true ↔
      (if lo.compl then a.pos < x.pos else a.pos ≤ x.pos) ∧ (if hi.compl then x.pos < b.pos else x.pos ≤ b.pos) := by
    cases lo.compl <;> cases hi.compl <;> simp [le_iff ha hxn, le_iff hxn hb, lt_iff ha hxn, lt_iff hxn hb]
  rw [hmk]
  simp only [BInterval.contains, hops]
  generalize ((if lo.compl then a.lt x else a.le x) && (if hi.compl then x.lt b else x.le b)) = r at *
  cases int with
  | false =>
    refine ⟨r, by cases compl <;> rfl, ?_⟩
    simp only [Bool.false_eq_true, false_implies, true_and]
    exact hiff
  | true =>
    obtain ⟨n, hn, hn'⟩ := notInt_ok hx
    cases n with
    | true =>
      refine ⟨false, by simp only [hn, if_true]; cases compl <;> rfl, ?_⟩
      have : ¬ x.isInteger := fun h => by simpa using hn'.2 h
      simp [this]
    | false =>
      refine ⟨r, by simp only [hn, if_true]; cases compl <;> rfl, ?_⟩
      simp only [forall_const, hn'.1 rfl, true_and]
      exact hiff

/-! ### the documented domains -/

/-- the limits of a region as `_get_set_data` gives them -/
def Region.lo : Region → DLim
  | .all => ⟨.negInf, false⟩ | .positive => ⟨.int 0, true⟩ | .nonNegative => ⟨.int 0, false⟩ | .negative => ⟨.negInf, false⟩ | .nonPositive => ⟨.negInf, false⟩
  | .atLeastOne => ⟨.int 1, false⟩ | .bit => ⟨.int 0, false⟩
def Region.hi : Region → DLim
  | .all => ⟨.posInf, false⟩ | .positive => ⟨.posInf, false⟩ | .nonNegative => ⟨.posInf, false⟩ | .negative => ⟨.int 0, true⟩ | .nonPositive => ⟨.int 0, false⟩
  | .atLeastOne => ⟨.posInf, false⟩ | .bit => ⟨.int 1, false⟩

theorem getSetData_domains : ∀ r ∈ domains, getSetData r.1.toList = .ok (r.2.1, r.2.2.lo, r.2.2.hi) := by
  decide +kernel

theorem domains_unique : ∀ r ∈ domains, ∀ s ∈ domains, r.1.toList = s.1.toList → r = s := by decide +kernel

theorem Num.pos_zero : (Num.int 0).pos = 0 := by simp [Num.pos]
theorem Num.pos_one : (Num.int 1).pos = (((1 : ℚ) : WithTop ℚ) : Ext) := by simp [Num.pos]

theorem Region.lo_ne (r : Region) : r.lo.n ≠ .nan := by cases r <;> simp [Region.lo]
theorem Region.hi_ne (r : Region) : r.hi.n ≠ .nan := by cases r <;> simp [Region.hi]

theorem Num.le_posInf (x : Num) : x.pos ≤ Num.posInf.pos := by
  cases x <;> simp [Num.pos]
theorem Num.negInf_le (x : Num) : Num.negInf.pos ≤ x.pos := by simp [Num.pos]

theorem Region.has_iff (r : Region) (x : Num) : r.has x.pos ↔ (if r.lo.isOpen then r.lo.n.pos < x.pos else r.lo.n.pos ≤ x.pos) ∧ (if r.hi.isOpen then x.pos < r.hi.n.pos else x.pos ≤ r.hi.n.pos) := by
  have h1 := Num.le_posInf x
  have h2 := Num.negInf_le x
  cases r <;> simp [Region.has, Region.lo, Region.hi, Num.pos_zero, Num.pos_one, h1, h2]

theorem Region.lo_hi (r : Region) : r.lo.n.pos < r.hi.n.pos := by
  cases r <;> simp [Region.lo, Region.hi, Num.pos]
  all_goals exact WithBot.coe_lt_coe.2 (WithTop.coe_lt_top _)

/-! ### what is supported -/

/-- `x>=a` or `a<=x` -/
inductive IsLower : Part → Num → Prop
  | right (a : Num) : IsLower (.right .ge (.num a)) a
  | left (a : Num) : IsLower (.left (.num a) .le) a

/-- `x<=b` or `b>=x` -/
inductive IsUpper : Part → Num → Prop
  | right (b : Num) : IsUpper (.right .le (.num b)) b
  | left (b : Num) : IsUpper (.left (.num b) .ge) b

/-- the number lies above the whole region -/
def Region.under (r : Region) (b : Ext) : Prop :=
  match r with
  | .negative => 0 < b
  | .nonPositive => 0 < b
  | .bit => (((1 : ℚ) : WithTop ℚ) : Ext) < b
  | _ => False

/-- The definitions for which the code does what they say: closed limits that are numbers, in order; an (in)equality; a documented domain, alone or with an upper limit. -/
inductive Supported : Option Part → Part → Prop
  | lower {p a} : IsLower p a → a ≠ .nan → Supported none p
  | upper {p b} : IsUpper p b → b ≠ .nan → Supported none p
  | two {a b : Num} : a ≠ .nan → b ≠ .nan → a.pos ≤ b.pos → Supported none (.two (.num a) .le .le (.num b))
  | twoDown {a b : Num} : a ≠ .nan → b ≠ .nan → a.pos ≤ b.pos → Supported none (.two (.num b) .ge .ge (.num a))
  | lowerUpper {p q a b} : IsLower p a → IsUpper q b → a ≠ .nan → b ≠ .nan → a.pos ≤ b.pos → Supported (some p) q
  | upperLower {p q a b} : IsLower p a → IsUpper q b → a ≠ .nan → b ≠ .nan → a.pos ≤ b.pos → Supported (some q) p
  | upperUpper {p q a b} : IsUpper p a → IsUpper q b → a ≠ .nan → b ≠ .nan → Supported (some p) q
  | equal {neg} {a : Num} : a ≠ .nan → Supported none (.eqRight neg (.num a))
  | equalLeft {neg} {a : Num} : a ≠ .nan → Supported none (.eqLeft (.num a) neg)
  | domain {r} : r ∈ domains → Supported none (.dom r.1.toList)
  | domainUpper {r q b} : r ∈ domains → IsUpper q b → b ≠ .nan → (r.2.2.has b.pos ∨ r.2.2.under b.pos) → Supported (some (.dom r.1.toList)) q
  | upperDomain {r q b} : r ∈ domains → IsUpper q b → b ≠ .nan → (r.2.2.has b.pos ∨ (r.2.2.under b.pos ∧ r.2.2 ≠ .negative)) → Supported (some q) (.dom r.1.toList)

/-- what has to be shown for one definition -/
def Right (first : Option Part) (last : Part) : Prop :=
  ∀ pre post, ∃ i, build first last pre post = .ok i ∧ ∀ (x : Num) (d : Option Dict), (∃ q, x.rat = some q) →
    ∃ r, i.contains x d = .ok r ∧ (r = true ↔ if pre != post then ¬ saysAll x first last else saysAll x first last)

theorem right_of {first : Option Part} {last : Part} (lo hi : BItem) (a b : Num) (int neg : Bool) (hlo : lo.val.num? = some a) (hhi : hi.val.num? = some b) (cl : lo.val.closed = true)
    (ch : hi.val.closed = true) (hab : a.pos < b.pos ∨ (a.pos ≤ b.pos ∧ lo.compl = false ∧ hi.compl = false)) (ha : a ≠ .nan) (hb : b ≠ .nan)
    (hbuild : ∀ pre post, build first last pre post = .ok (mkBuilt (some lo) (some hi) int ((pre != neg) != post)))
    (hs : ∀ x : Num, (∃ q, x.rat = some q) → (saysAll x first last ↔ (if neg then ¬ ((int = true → x.isInteger) ∧ (if lo.compl then a.pos < x.pos else a.pos ≤ x.pos) ∧ (if hi.compl then x.pos < b.pos else x.pos ≤ b.pos))
      else ((int = true → x.isInteger) ∧ (if lo.compl then a.pos < x.pos else a.pos ≤ x.pos) ∧ (if hi.compl then x.pos < b.pos else x.pos ≤ b.pos))))) : Right first last := by
  intro pre post
  refine ⟨_, hbuild pre post, ?_⟩
  intro x d hx
  obtain ⟨r, h1, h2⟩ := built_contains lo hi a b x int ((pre != neg) != post) d hlo hhi cl ch hab ha hb hx
  refine ⟨_, h1, ?_⟩
  rw [hs x hx]
  rw [← h2]
  cases pre <;> cases post <;> cases neg <;> cases r <;> simp

theorem mkBuilt_lower (o : Option BItem) (int compl : Bool) : mkBuilt none o int compl = mkBuilt (some ⟨.plain (.num .negInf), false⟩) o int compl := rfl
theorem mkBuilt_upper (o : Option BItem) (int compl : Bool) : mkBuilt o none int compl = mkBuilt o (some ⟨.plain (.num .posInf), false⟩) int compl := rfl

theorem IsLower.says {p : Part} {a : Num} (h : IsLower p a) (x : Num) : p.says x ↔ a.pos ≤ x.pos := by cases h <;> simp [Part.says, IVal.place, Cmp.rel]
theorem IsUpper.says {p : Part} {b : Num} (h : IsUpper p b) (x : Num) : p.says x ↔ x.pos ≤ b.pos := by cases h <;> simp [Part.says, IVal.place, Cmp.rel]

theorem IsLower.last {p : Part} {a : Num} (h : IsLower p a) (s : BState) (c : Bool) (hs : s.lower = none) : lastPart s p c = .ok ({ s with lower := some ⟨.wrap ⟨.num a, false⟩, false⟩ }, c) := by
  cases h <;> simp [lastPart, BState.cmpRight, BState.cmpLeft, BState.setLower, replaceLower, hs, Except.map]
theorem IsUpper.last {p : Part} {a : Num} (h : IsUpper p a) (s : BState) (c : Bool) : lastPart s p c = (s.setUpper ⟨.num a, false⟩).map fun s => (s, c) := by
  cases h <;> rfl
theorem IsLower.first {p : Part} {a : Num} (h : IsLower p a) (q : Part) : firstPart p q = .ok { lower := some ⟨.wrap ⟨.num a, false⟩, false⟩ } := by
  cases h <;> rfl
theorem IsUpper.first {p : Part} {a : Num} (h : IsUpper p a) (q : Part) : firstPart p q = .ok { upper := some ⟨.wrap ⟨.num a, false⟩, false⟩ } := by
  cases h <;> rfl

theorem says_dom {r : String × Bool × Region} (hr : r ∈ domains) (x : Num) : (Part.dom r.1.toList).says x ↔ (r.2.1 = true → x.isInteger) ∧ r.2.2.has x.pos := by
  constructor
  · rintro ⟨s, hs, e, h⟩
    have := domains_unique s hs r hr e
    subst this; exact h
  · intro h; exact ⟨r, hr, rfl, h⟩

theorem dom_empty {r : String × Bool × Region} (hr : r ∈ domains) : BState.domain {} r.1.toList = .ok { lower := some ⟨.plain (.num r.2.2.lo.n), r.2.2.lo.isOpen⟩, upper := some ⟨.plain (.num r.2.2.hi.n), r.2.2.hi.isOpen⟩, int := r.2.1 } := by
  unfold BState.domain
  rw [getSetData_domains r hr]
  rfl

theorem saysAll_none (x : Num) (p : Part) : saysAll x none p ↔ p.says x := by simp [saysAll]
theorem saysAll_some (x : Num) (p q : Part) : saysAll x (some p) q ↔ p.says x ∧ q.says x := by simp [saysAll]

theorem setUpper_none (s : BState) (i : Item) (h : s.upper = none) : s.setUpper i = .ok { s with upper := some ⟨.wrap i, false⟩ } := by simp [BState.setUpper, replaceUpper, h, Except.map]

theorem build_none {p : Part} {pre c : Bool} {s : BState} (h : lastPart {} p pre = .ok (s, c)) (post : Bool) : build none p pre post = .ok (mkBuilt s.lower s.upper s.int (c != post)) := by
  simp only [build, bind, Except.bind, h, pure, Except.pure]
theorem build_some {p q : Part} {pre c : Bool} {s s' : BState} (h : firstPart p q = .ok s) (h' : lastPart s q pre = .ok (s', c)) (post : Bool) :
    build (some p) q pre post = .ok (mkBuilt s'.lower s'.upper s'.int (c != post)) := by
  simp only [build, bind, Except.bind, h, h', pure, Except.pure]

/-- C68: a supported definition is accepted, and a finite number is in the interval exactly when it satisfies all statements (with `!` or `'`: exactly when not). -/
theorem C68_supported_partial {first : Option Part} {last : Part} (h : Supported first last) :
    ∀ pre post, ∃ i, build first last pre post = .ok i ∧ ∀ (x : Num) (d : Option Dict), (∃ q, x.rat = some q) →
      ∃ r, i.contains x d = .ok r ∧ (r = true ↔ if pre != post then ¬ saysAll x first last else saysAll x first last) := by
  show Right first last
  cases h with
  | @lower _ a hp ha =>
    refine right_of ⟨.wrap ⟨.num a, false⟩, false⟩ ⟨.plain (.num .posInf), false⟩ a .posInf false false rfl rfl rfl rfl (.inr ⟨Num.le_posInf a, rfl, rfl⟩) ha (by simp) ?_ ?_
    · intro pre post
      rw [build_none (hp.last {} pre rfl)]
      cases pre <;> cases post <;> rfl
    · intro x _
      have := Num.le_posInf x
      simp [saysAll_none, hp.says, this]
  | @upper _ b hp hb =>
    refine right_of ⟨.plain (.num .negInf), false⟩ ⟨.wrap ⟨.num b, false⟩, false⟩ .negInf b false false rfl rfl rfl rfl (.inr ⟨Num.negInf_le b, rfl, rfl⟩) (by simp) hb ?_ ?_
    · intro pre post
      rw [build_none (by rw [hp.last {} pre]; rfl)]
      cases pre <;> cases post <;> rfl
    · intro x _
      have := Num.negInf_le x
      simp [saysAll_none, hp.says, this]
  | @two a b ha hb hab =>
    refine right_of ⟨.wrap ⟨.num a, false⟩, false⟩ ⟨.wrap ⟨.num b, false⟩, false⟩ a b false false rfl rfl rfl rfl (.inr ⟨hab, rfl, rfl⟩) ha hb ?_ ?_
    · intro pre post; cases pre <;> cases post <;> rfl
    · intro x _; simp [saysAll_none, Part.says, IVal.place, Cmp.rel]
  | @twoDown a b ha hb hab =>
    refine right_of ⟨.wrap ⟨.num a, false⟩, false⟩ ⟨.wrap ⟨.num b, false⟩, false⟩ a b false false rfl rfl rfl rfl (.inr ⟨hab, rfl, rfl⟩) ha hb ?_ ?_
    · intro pre post; cases pre <;> cases post <;> rfl
    · intro x _; simp [saysAll_none, Part.says, IVal.place, Cmp.rel, and_comm]
  | @lowerUpper p q a b hp hq ha hb hab =>
    refine right_of ⟨.wrap ⟨.num a, false⟩, false⟩ ⟨.wrap ⟨.num b, false⟩, false⟩ a b false false rfl rfl rfl rfl (.inr ⟨hab, rfl, rfl⟩) ha hb ?_ ?_
    · intro pre post
      rw [build_some (hp.first _) (by rw [hq.last]; rfl)]
      cases pre <;> cases post <;> rfl
    · intro x _; simp [saysAll_some, hp.says, hq.says]
  | @upperLower p q a b hp hq ha hb hab =>
    refine right_of ⟨.wrap ⟨.num a, false⟩, false⟩ ⟨.wrap ⟨.num b, false⟩, false⟩ a b false false rfl rfl rfl rfl (.inr ⟨hab, rfl, rfl⟩) ha hb ?_ ?_
    · intro pre post
      rw [build_some (hq.first _) (hp.last { upper := some ⟨.wrap ⟨.num b, false⟩, false⟩ } pre rfl)]
      cases pre <;> cases post <;> rfl
    · intro x _; simp [saysAll_some, hp.says, hq.says, and_comm]
  | @upperUpper p q a b hp hq ha hb =>
    by_cases hab : b.pos ≤ a.pos
    · refine right_of ⟨.plain (.num .negInf), false⟩ ⟨.wrap ⟨.num b, false⟩, false⟩ .negInf b false false rfl rfl rfl rfl (.inr ⟨Num.negInf_le b, rfl, rfl⟩) (by simp) hb ?_ ?_
      · intro pre post
        rw [build_some (hp.first _) (by rw [hq.last]; simp only [BState.setUpper, replaceUpper, BItem.isVar, IVal.isVar, BItem.ge, BVal.num?, (le_iff hb ha).2 hab]; rfl)]
        cases pre <;> cases post <;> rfl
      · intro x _
        have h1 := Num.negInf_le x
        simp only [saysAll_some, hp.says, hq.says, Bool.false_eq_true, if_false, h1, true_and, false_implies]
        exact ⟨fun h => h.2, fun h => ⟨h.trans hab, h⟩⟩
    · have hn : b.le a = false := by rw [Bool.eq_false_iff]; exact fun h => hab ((le_iff hb ha).1 h)
      refine right_of ⟨.plain (.num .negInf), false⟩ ⟨.wrap ⟨.num a, false⟩, false⟩ .negInf a false false rfl rfl rfl rfl (.inr ⟨Num.negInf_le a, rfl, rfl⟩) (by simp) ha ?_ ?_
      · intro pre post
        rw [build_some (hp.first _) (by rw [hq.last]; simp only [BState.setUpper, replaceUpper, BItem.isVar, IVal.isVar, BItem.ge, BVal.num?, hn]; rfl)]
        cases pre <;> cases post <;> rfl
      · intro x _
        have h1 := Num.negInf_le x
        simp only [saysAll_some, hp.says, hq.says, Bool.false_eq_true, if_false, h1, true_and, false_implies]
        exact ⟨fun h => h.1, fun h => ⟨h, h.trans (le_of_not_ge hab)⟩⟩
  | @equal neg a ha =>
    refine right_of ⟨.plain (.num a), false⟩ ⟨.plain (.num a), false⟩ a a false neg rfl rfl rfl rfl (.inr ⟨le_rfl, rfl, rfl⟩) ha ha ?_ ?_
    · intro pre post; cases pre <;> cases post <;> cases neg <;> rfl
    · intro x _
      have : (x.pos = a.pos) ↔ (a.pos ≤ x.pos ∧ x.pos ≤ a.pos) := ⟨fun h => ⟨h.ge, h.le⟩, fun h => le_antisymm h.2 h.1⟩
      cases neg <;> simp [saysAll_none, Part.says, IVal.place, this]
  | @equalLeft neg a ha =>
    refine right_of ⟨.plain (.num a), false⟩ ⟨.plain (.num a), false⟩ a a false neg rfl rfl rfl rfl (.inr ⟨le_rfl, rfl, rfl⟩) ha ha ?_ ?_
    · intro pre post; cases pre <;> cases post <;> cases neg <;> rfl
    · intro x _
      have : (x.pos = a.pos) ↔ (a.pos ≤ x.pos ∧ x.pos ≤ a.pos) := ⟨fun h => ⟨h.ge, h.le⟩, fun h => le_antisymm h.2 h.1⟩
      cases neg <;> simp [saysAll_none, Part.says, IVal.place, this]
  | @domain r hr =>
    refine right_of ⟨.plain (.num r.2.2.lo.n), r.2.2.lo.isOpen⟩ ⟨.plain (.num r.2.2.hi.n), r.2.2.hi.isOpen⟩ r.2.2.lo.n r.2.2.hi.n r.2.1 false rfl rfl rfl rfl (.inl r.2.2.lo_hi) r.2.2.lo_ne r.2.2.hi_ne ?_ ?_
    · intro pre post
      rw [build_none (by rw [lastPart, dom_empty hr]; rfl)]
      cases pre <;> cases post <;> rfl
    · intro x _
      simp only [saysAll_none, says_dom hr, Region.has_iff, Bool.false_eq_true, if_false]
  | @domainUpper r q b hr hq hb hcond =>
    have hfirst : firstPart (.dom r.1.toList) last = .ok { lower := some ⟨.plain (.num r.2.2.lo.n), r.2.2.lo.isOpen⟩, upper := some ⟨.plain (.num r.2.2.hi.n), r.2.2.hi.isOpen⟩, int := r.2.1 } := by
      have : last.isEq = false := by cases hq <;> rfl
      rw [firstPart, this, ← dom_empty hr]; rfl
    by_cases hle : b.pos ≤ r.2.2.hi.n.pos
    · have hhas : r.2.2.has b.pos := by
        rcases hcond with h | h
        · exact h
        · exfalso
          revert h hle; cases r.2.2 <;> simp only [Region.under, Region.hi, Num.pos_zero, Num.pos_one, false_implies, implies_true] <;> intro h1 h2 <;> exact absurd h1 (not_le.2 h2)
      have hiff := (Region.has_iff r.2.2 b).1 hhas
      refine right_of ⟨.plain (.num r.2.2.lo.n), r.2.2.lo.isOpen⟩ ⟨.wrap ⟨.num b, false⟩, false⟩ r.2.2.lo.n b r.2.1 false rfl rfl rfl rfl ?_ r.2.2.lo_ne hb ?_ ?_
      · cases ho : r.2.2.lo.isOpen with
        | true => left; simpa [ho] using hiff.1
        | false => right; exact ⟨by simpa [ho] using hiff.1, rfl, rfl⟩
      · intro pre post
        rw [build_some hfirst (by rw [hq.last]; simp only [BState.setUpper, replaceUpper, BItem.isVar, IVal.isVar, BItem.ge, BVal.num?, (le_iff hb r.2.2.hi_ne).2 hle]; rfl)]
        cases pre <;> cases post <;> rfl
      · intro x _
        simp only [saysAll_some, says_dom hr, Region.has_iff, hq.says, Bool.false_eq_true, if_false]
        constructor
        · rintro ⟨⟨h1, h2, h3⟩, h4⟩; exact ⟨h1, h2, h4⟩
        · rintro ⟨h1, h2, h4⟩
          refine ⟨⟨h1, h2, ?_⟩, h4⟩
          have h5 := hiff.2
          cases ho : r.2.2.hi.isOpen with
          | true => simp only [ho, if_true] at h5 ⊢; exact lt_of_le_of_lt h4 h5
          | false => simp only [ho, Bool.false_eq_true, if_false] at h5 ⊢; exact h4.trans h5
    · have hn : b.le r.2.2.hi.n = false := by rw [Bool.eq_false_iff]; exact fun h => hle ((le_iff hb r.2.2.hi_ne).1 h)
      refine right_of ⟨.plain (.num r.2.2.lo.n), r.2.2.lo.isOpen⟩ ⟨.plain (.num r.2.2.hi.n), r.2.2.hi.isOpen⟩ r.2.2.lo.n r.2.2.hi.n r.2.1 false rfl rfl rfl rfl (.inl r.2.2.lo_hi) r.2.2.lo_ne r.2.2.hi_ne ?_ ?_
      · intro pre post
        rw [build_some hfirst (by rw [hq.last]; simp only [BState.setUpper, replaceUpper, BItem.isVar, IVal.isVar, BItem.ge, BVal.num?, hn]; rfl)]
        cases pre <;> cases post <;> rfl
      · intro x _
        simp only [saysAll_some, says_dom hr, Region.has_iff, hq.says, Bool.false_eq_true, if_false]
        constructor
        · rintro ⟨h, _⟩; exact h
        · intro h
          refine ⟨h, ?_⟩
          have h5 := h.2.2
          have h6 := lt_of_not_ge hle
          cases ho : r.2.2.hi.isOpen with
          | true => simp only [ho, if_true] at h5; exact (h5.trans h6).le
          | false => simp only [ho, Bool.false_eq_true, if_false] at h5; exact h5.trans h6.le
  | @upperDomain r q b hr hq hb hcond =>
    have hdom : ∀ (u : BItem), replaceDom (some ⟨.wrap ⟨.num b, false⟩, false⟩) r.2.2.hi = .ok u →
        BState.domain { upper := some ⟨.wrap ⟨.num b, false⟩, false⟩ } r.1.toList = .ok { lower := some ⟨.plain (.num r.2.2.lo.n), r.2.2.lo.isOpen⟩, upper := some u, int := r.2.1 } := by
      intro u hu
      unfold BState.domain
      rw [getSetData_domains r hr]
      simp only [bind, Except.bind, hu, pure, Except.pure]
      rfl
    by_cases hle : b.pos < r.2.2.hi.n.pos
    · have hhas : r.2.2.has b.pos := by
        rcases hcond with h | h
        · exact h
        · exfalso
          obtain ⟨h, -⟩ := h
          revert h hle; cases r.2.2 <;> simp only [Region.under, Region.hi, Num.pos_zero, Num.pos_one, false_implies, implies_true] <;> intro h1 h2 <;> exact absurd h1 (not_lt.2 h2.le)
      have hiff := (Region.has_iff r.2.2 b).1 hhas
      have hn : r.2.2.hi.n.le b = false := by rw [Bool.eq_false_iff]; exact fun h => absurd ((le_iff r.2.2.hi_ne hb).1 h) (not_le.2 hle)
      have hn' : r.2.2.hi.n.lt b = false := by rw [Bool.eq_false_iff]; exact fun h => absurd ((lt_iff r.2.2.hi_ne hb).1 h) (not_lt.2 hle.le)
      have hu : replaceDom (some ⟨.wrap ⟨.num b, false⟩, false⟩) r.2.2.hi = .ok ⟨.wrap ⟨.num b, false⟩, false⟩ := by
        simp only [replaceDom, BItem.isVar, BItem.gt, BItem.ge, BVal.num?, hn, hn']
        cases r.2.2.hi.isOpen <;> rfl
      refine right_of ⟨.plain (.num r.2.2.lo.n), r.2.2.lo.isOpen⟩ ⟨.wrap ⟨.num b, false⟩, false⟩ r.2.2.lo.n b r.2.1 false rfl rfl rfl rfl ?_ r.2.2.lo_ne hb ?_ ?_
      · cases ho : r.2.2.lo.isOpen with
        | true => left; simpa [ho] using hiff.1
        | false => right; exact ⟨by simpa [ho] using hiff.1, rfl, rfl⟩
      · intro pre post
        rw [build_some (hq.first _) (by rw [lastPart, hdom _ hu]; rfl)]
        cases pre <;> cases post <;> rfl
      · intro x _
        simp only [saysAll_some, says_dom hr, Region.has_iff, hq.says, Bool.false_eq_true, if_false]
        constructor
        · rintro ⟨h4, h1, h2, h3⟩; exact ⟨h1, h2, h4⟩
        · rintro ⟨h1, h2, h4⟩
          refine ⟨h4, h1, h2, ?_⟩
          cases ho : r.2.2.hi.isOpen with
          | true => simp only [if_true]; exact lt_of_le_of_lt h4 hle
          | false => simp only [Bool.false_eq_true, if_false]; exact h4.trans hle.le
    · have hge := le_of_not_gt hle
      have hopen : r.2.2.hi.isOpen = false := by
        revert hcond hge; cases r.2.2 <;> simp [Region.hi, Region.has, Num.pos_zero, Region.under]
      have hu : replaceDom (some ⟨.wrap ⟨.num b, false⟩, false⟩) r.2.2.hi = .ok ⟨.plain (.num r.2.2.hi.n), r.2.2.hi.isOpen⟩ := by
        simp only [replaceDom, BItem.isVar, BItem.ge, BVal.num?, (le_iff r.2.2.hi_ne hb).2 hge, hopen]
        rfl
      refine right_of ⟨.plain (.num r.2.2.lo.n), r.2.2.lo.isOpen⟩ ⟨.plain (.num r.2.2.hi.n), r.2.2.hi.isOpen⟩ r.2.2.lo.n r.2.2.hi.n r.2.1 false rfl rfl rfl rfl (.inl r.2.2.lo_hi) r.2.2.lo_ne r.2.2.hi_ne ?_ ?_
      · intro pre post
        rw [build_some (hq.first _) (by rw [lastPart, hdom _ hu]; rfl)]
        cases pre <;> cases post <;> rfl
      · intro x _
        simp only [saysAll_some, says_dom hr, Region.has_iff, hq.says, Bool.false_eq_true, if_false, hopen]
        constructor
        · rintro ⟨_, h⟩; exact h
        · intro h; exact ⟨h.2.2.trans hge, h⟩

/-- C68: an (in)equality with a variable is decided with the value given for it; without one the question raises TypeError. -/
theorem C68_equal_variable (v : String) (neg pre post : Bool) : ∃ i, build none (.eqRight neg (.var v)) pre post = .ok i ∧ build none (.eqLeft (.var v) neg) pre post = .ok i ∧
    (∀ (x n : Num) (d : Dict), d.lookup v = some n → n ≠ .nan → x ≠ .nan → ∃ r, i.contains x (some d) = .ok r ∧ (r = true ↔ if (pre != post) != neg then x.pos ≠ n.pos else x.pos = n.pos)) ∧
    ∀ x : Num, i.contains x none = .error .type := by
  refine ⟨⟨⟨.plain (.var v), false⟩, ⟨.plain (.var v), false⟩, false, false, false, (pre != neg) != post⟩, ?_, ?_, ?_, ?_⟩
  · cases neg <;> cases pre <;> cases post <;> simp [build, bind, Except.bind, lastPart, BState.equal, mkBuilt, BItem.isVar, pure, Except.pure]
  · cases neg <;> cases pre <;> cases post <;> simp [build, bind, Except.bind, lastPart, BState.equal, mkBuilt, BItem.isVar, pure, Except.pure]
  · intro x n d hd hn hx
    have e : n.pos = x.pos ↔ (n.pos ≤ x.pos ∧ x.pos ≤ n.pos) := ⟨fun h => ⟨h.le, h.ge⟩, fun h => le_antisymm h.1 h.2⟩
    have h1 := le_iff hn hx
    have h2 := le_iff hx hn
    refine ⟨if (pre != neg) != post then !(n.le x && x.le n) else (n.le x && x.le n), ?_, ?_⟩
    · simp only [BInterval.contains, BInterval.ops, BVal.subst, hd, BVal.below, BVal.above, Bool.false_eq_true, if_false]
      cases n.le x <;> simp [Except.map]
    rw [eq_comm (a := x.pos), e, ne_comm, Ne, e, ← h1, ← h2]
    cases neg <;> cases pre <;> cases post <;> cases n.le x <;> cases x.le n <;> simp
  · intro x; rfl

/-- Disagreement: an open limit is lost: `{x| x>a}` contains `a`, as do `{x| a<x}`, `{x| x<a}` and `{x| a>x}`. -/
theorem C68_open_wrong (a : Num) (ha : ∃ q, a.rat = some q) (d : Option Dict) :
    ∀ p, (p = .right .gt (.num a) ∨ p = .left (.num a) .lt ∨ p = .right .lt (.num a) ∨ p = .left (.num a) .gt) →
      ¬ p.says a ∧ ∃ i, build none p false false = .ok i ∧ i.contains a d = .ok true := by
  have hn : a ≠ .nan := by rintro rfl; obtain ⟨q, hq⟩ := ha; simp [Num.rat] at hq
  have hl : a.le a = true := (le_iff hn hn).2 le_rfl
  have hi : a.le .posInf = true := (le_iff hn (by simp)).2 (Num.le_posInf a)
  have hj : Num.negInf.le a = true := (le_iff (by simp) hn).2 (Num.negInf_le a)
  have k1 : Num.posInf.lt a = false := by cases a <;> rfl
  have k2 : a.lt Num.negInf = false := by cases a <;> rfl
  rintro p (rfl | rfl | rfl | rfl) <;> refine ⟨by simp [Part.says, IVal.place, Cmp.rel], _, rfl, ?_⟩
  all_goals
    simp [mkBuilt, BItem.gt, BVal.num?, k1, k2, BInterval.contains, BInterval.ops, BVal.subst, BVal.below, BVal.above, hl, hi, hj, Except.map]

/-- Disagreement: with the limits in the wrong order no number satisfies `{x| b<=x<=a}`, but the interval has both limits as members. -/
theorem C68_swapped_wrong (a b : Num) (ha : a ≠ .nan) (hb : b ≠ .nan) (hab : a.pos < b.pos) (d : Option Dict) :
    (∀ x, ¬ (Part.two (.num b) .le .le (.num a)).says x) ∧ ∃ i, build none (.two (.num b) .le .le (.num a)) false false = .ok i ∧ i.contains a d = .ok true ∧ i.contains b d = .ok true := by
  constructor
  · rintro x ⟨⟨u, hu, h1⟩, ⟨v, hv, h2⟩⟩
    simp only [IVal.place, Option.some.injEq] at hu hv; subst hu hv
    exact absurd (le_trans h1 h2) (not_le.2 hab)
  · have h1 : a.lt b = true := (lt_iff ha hb).2 hab
    have h2 : a.le b = true := (le_iff ha hb).2 hab.le
    have h3 : a.le a = true := (le_iff ha ha).2 le_rfl
    have h4 : b.le b = true := (le_iff hb hb).2 le_rfl
    refine ⟨_, rfl, ?_, ?_⟩
    all_goals simp [mkBuilt, BItem.isVar, BItem.gt, BVal.num?, h1, h2, h3, h4, BInterval.contains, BInterval.ops, BVal.subst, BVal.below, BVal.above, Except.map]

/-- Disagreement: an interval with a variable limit in a comparison has no member at all, whatever value is given for the variable. -/
theorem C68_variable_wrong (v : String) (d : Option Dict) (x : Num) (hx : x ≠ .nan) :
    ∀ p, (p = .right .ge (.var v) ∨ p = .right .le (.var v) ∨ p = .right .gt (.var v) ∨ p = .right .lt (.var v)) → ∃ i, build none p false false = .ok i ∧ i.contains x d = .ok false := by
  have hj : Num.negInf.le x = true := (le_iff (by simp) hx).2 (Num.negInf_le x)
  rintro p (rfl | rfl | rfl | rfl) <;> refine ⟨_, rfl, ?_⟩
  all_goals simp [mkBuilt, BItem.isVar, BItem.gt, BVal.num?, BInterval.contains, BInterval.ops, BVal.subst, BVal.below, BVal.above, Except.map, hj]

/-- Disagreement: a second lower limit – after a domain, or after a lower limit – raises AttributeError: `{x| x e Z, x>=10}`, `{x| x>=10, x>=256}`.  The short form `n>=10` raises TypeError. -/
theorem C68_second_lower_wrong (a b : IVal) (o pre post : Bool) : ∀ last, last = .right (if o then .gt else .ge) b →
    (∀ r ∈ domains, build (some (.dom r.1.toList)) last pre post = .error .attribute) ∧ build (some (.right .ge a)) last pre post = .error .attribute ∧ buildInt last pre = .error .type := by
  rintro last rfl
  have key : ∀ r ∈ domains, build (some (.dom r.1.toList)) (.right (if o then .gt else .ge) b) pre post = .error .attribute := by
    intro r hr
    simp only [build, firstPart, Part.isEq, Bool.false_eq_true, if_false, dom_empty hr, bind, Except.bind, lastPart]
    cases o <;> rfl
  refine ⟨key, by cases o <;> rfl, ?_⟩
  unfold buildInt
  have : build (some (.dom ['Z'])) (.right (if o then .gt else .ge) b) pre false = .error .attribute := by cases o <;> rfl
  rw [this]

/-- Disagreement: a domain after a lower limit removes the limit: every integer is in `{z| z>=a, z e Z}`. -/
theorem C68_domain_lower_wrong (a : Num) (ha : a ≠ .nan) (z : Int) (d : Option Dict) : ∃ i, build (some (.right .ge (.num a))) (.dom ['Z']) false false = .ok i ∧ i.contains (.int z) d = .ok true := by
  have h : Num.negInf.le a = true := (le_iff (by simp) ha).2 (Num.negInf_le a)
  refine ⟨⟨⟨.plain (.num .negInf), false⟩, ⟨.plain (.num .posInf), false⟩, false, false, true, false⟩, ?_, ?_⟩
  · rw [build_some (s := { lower := some ⟨.wrap ⟨.num a, false⟩, false⟩ }) (s' := { lower := some ⟨.plain (.num .negInf), false⟩, upper := some ⟨.plain (.num .posInf), false⟩, int := true }) (c := false) rfl ?_]
    · rfl
    · have e : getSetData ['Z'] = .ok (true, ⟨.negInf, false⟩, ⟨.posInf, false⟩) := by decide +kernel
      simp only [lastPart, BState.domain, e, bind, Except.bind, replaceDom, BItem.isVar, BItem.ge, BVal.num?, h]
      rfl
  · simp [BInterval.contains, BInterval.ops, BVal.subst, BVal.below, BVal.above, Num.notInt, Num.le, Except.map]

/-- Disagreement: after an open upper limit the open end of a domain is closed: 0 is in `{x| x<b, x e R+}`. -/
theorem C68_domain_open_wrong (b : Int) (hb : 0 < b) : ∃ i, build (some (.right .lt (.num (.int b)))) (.dom ['R', '+']) false false = .ok i ∧ i.contains (.int 0) none = .ok true ∧
    ¬ (Part.dom ['R', '+']).says (.int 0) := by
  have e : getSetData ['R', '+'] = .ok (false, ⟨.int 0, true⟩, ⟨.posInf, false⟩) := by decide +kernel
  have h1 : ¬ b < 0 := by omega
  have h2 : ¬ b = 0 := by omega
  refine ⟨_, build_some (s := { upper := some ⟨.wrap ⟨.num (.int b), true⟩, false⟩ }) (s' := { lower := some ⟨.plain (.num (.int 0)), true⟩, upper := some ⟨.wrap ⟨.num (.int b), true⟩, false⟩ }) (c := false) rfl ?_ false, ?_, ?_⟩
  · simp only [lastPart, BState.domain, e, bind, Except.bind, replaceDom, BItem.isVar, BItem.ge, BVal.num?]
    rfl
  · simp [mkBuilt, BItem.isVar, BItem.gt, BVal.num?, BVal.eq, IVal.eq, Num.eq, Num.lt, Num.le, BInterval.contains, BInterval.ops, BVal.subst, BVal.below, BVal.above, Except.map, h1, h2, hb.le]
  · intro h
    have := (says_dom (r := ("R+", false, .positive)) (by decide) (.int 0)).1 h
    simp [Region.has, Num.pos_zero] at this

/-- Disagreement: an upper limit above 0 before a domain of negative numbers raises TypeError; and every single character is taken for a domain – as the real numbers, unless it is `N` or `Z`. -/
theorem C68_domain_wrong : (∀ (b : Int), 0 < b → ∀ pre post, build (some (.right .le (.num (.int b)))) (.dom ['R', '-']) pre post = .error .type) ∧
    ∀ c : Char, c ≠ 'N' → c ≠ 'Z' → getSetData [c] = .ok (false, ⟨.negInf, false⟩, ⟨.posInf, false⟩) := by
  constructor
  · intro b hb pre post
    have e : getSetData ['R', '-'] = .ok (false, ⟨.negInf, false⟩, ⟨.int 0, true⟩) := by decide +kernel
    have h : (Num.int 0).lt (.int b) = true := by simpa [Num.lt] using hb
    simp only [build, firstPart, BState.cmpRight, BState.setUpper, replaceUpper, Except.map, lastPart, BState.domain, e, bind, Except.bind, replaceDom, BItem.isVar, BItem.gt, BVal.num?, h]
    rfl
  · intro c h1 h2
    have hr : ∀ (old new : String), 2 ≤ old.toList.length → repl old new [c] = [c] := by
      intro old new hl
      unfold repl
      cases ho : old.toList with
      | nil => simp [ho] at hl
      | cons a r => cases r with
        | nil => simp [ho] at hl
        | cons b r => simp [replaceAll, List.isPrefixOf]
    unfold getSetData
    rw [hr "Integer" "Z" (by decide), hr "integer" "Z" (by decide), hr "int" "Z" (by decide)]
    dsimp only
    rw [hr "Float" "R" (by decide), hr "float" "R" (by decide), hr "Double" "R" (by decide), hr "double" "R" (by decide)]
    simp [h1, h2]

example : Supported (some (.right .ge (.num (.int 1)))) (.left (.num (.int 5)) .ge) := .lowerUpper (.right _) (.left _) (by simp) (by simp) (by simp [Num.pos])
example : Supported (some (.dom "N".toList)) (.right .le (.num (.int 256))) := .domainUpper (r := ("N", true, .nonNegative)) (by decide) (.right _) (by simp) (.inl (by simp [Region.has, Num.pos]))
example : (build (some (.dom "N".toList)) (.right .le (.num (.int 256))) false false).toOption.map (fun i => (i.contains (.int 256) none, i.contains (.int 257) none, i.contains (.int (-1)) none, i.contains (.flt (1/2)) none)) =
    some (.ok true, .ok false, .ok false, .ok false) := by decide +kernel

end MSets
