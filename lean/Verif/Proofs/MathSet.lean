import Verif.Spec.MathSet
import Mathlib.Data.Rat.Cast.Order
import Mathlib.Tactic.Tauto
/-
Lemmas about the mathematical sets.
-/
namespace MSets

theorem le_iff {a b : Num} (ha : a ≠ .nan) (hb : b ≠ .nan) : a.le b = true ↔ a.pos ≤ b.pos := by
  cases a <;> cases b <;> simp_all [Num.le, Num.pos]

theorem lt_iff {a b : Num} (ha : a ≠ .nan) (hb : b ≠ .nan) : a.lt b = true ↔ a.pos < b.pos := by
  cases a <;> cases b <;> simp_all [Num.lt, Num.pos] <;> exact WithBot.coe_lt_coe.2 (WithTop.coe_lt_top _)

theorem eq_iff {a b : Num} (ha : a ≠ .nan) (hb : b ≠ .nan) : a.eq b = true ↔ a.pos = b.pos := by
  cases a <;> cases b <;> simp_all [Num.eq, Num.pos]

theorem lt_asymm' {a b : Num} (h : a.lt b = true) : b.lt a = false := by
  have ha : a ≠ .nan := by rintro rfl; simp [Num.lt] at h
  have hb : b ≠ .nan := by rintro rfl; cases a <;> simp [Num.lt] at h
  rw [← Bool.not_eq_true, lt_iff hb ha]
  exact ((lt_iff ha hb).1 h).not_gt

/-- the comparison part with numeric limits -/
theorem ops_num {s : Interval} {a b x : Num} (ha : a ≠ .nan) (hb : b ≠ .nan) (hx : x ≠ .nan) :
    ∃ r, s.ops (.num a, .num b) x = .ok r ∧ (r = true ↔ Between a.pos s.lowerLt x.pos b.pos s.upperGt) := by
  have e : s.ops (.num a, .num b) x = .ok ((if s.lowerLt then a.lt x else a.le x) && (if s.upperGt then x.lt b else x.le b)) := by
    simp only [Interval.ops, cmpLower, cmpUpper]
    cases (if s.lowerLt then a.lt x else a.le x) <;> simp
  refine ⟨_, e, ?_⟩
  simp only [Bool.and_eq_true, Between]
  have h1 : (if s.lowerLt then a.lt x else a.le x) = true ↔ (a.pos < x.pos ∨ (x.pos = a.pos ∧ s.lowerLt = false)) := by
    cases s.lowerLt <;> simp [lt_iff ha hx, le_iff ha hx, le_iff_lt_or_eq, eq_comm]
  have h2 : (if s.upperGt then x.lt b else x.le b) = true ↔ (x.pos < b.pos ∨ (x.pos = b.pos ∧ s.upperGt = false)) := by
    cases s.upperGt <;> simp [lt_iff hx hb, le_iff hx hb, le_iff_lt_or_eq]
  rw [h1, h2]

/-- the operators chosen by the constructor -/
theorem mkInterval_num (a b : Num) (ao bo int compl : Bool) (ha : a ≠ .nan) (hb : b ≠ .nan) :
    let s := mkInterval ⟨.num a, ao⟩ ⟨.num b, bo⟩ int compl
    ∃ lo hi : Num, s.lower.val = .num lo ∧ s.upper.val = .num hi ∧ lo ≠ .nan ∧ hi ≠ .nan ∧ s.int = int ∧ s.compl = compl ∧ lo.pos ≤ hi.pos ∧
      (∀ x, Between lo.pos s.lowerLt x hi.pos s.upperGt ↔ Inside a.pos ao b.pos bo x) := by
  intro s
  by_cases hlt : b.pos < a.pos
  · have g : b.lt a = true := (lt_iff hb ha).2 hlt
    have hne : ¬ a.eq b = true := by rw [eq_iff ha hb]; exact hlt.ne'
    have hs : s = { lower := ⟨.num b, bo⟩, upper := ⟨.num a, ao⟩, lowerLt := bo, upperGt := ao, int := int, compl := compl } := by
      simp only [s, mkInterval, IVal.isVar, Item.gt, g, IVal.eq]; simp [hne]
    refine ⟨b, a, by rw [hs], by rw [hs], hb, ha, by rw [hs], by rw [hs], hlt.le, fun x => ?_⟩
    rw [hs]
    simp only [Inside, if_pos hlt, if_neg hlt.not_gt]
  · have g : ¬ b.lt a = true := by rw [lt_iff hb ha]; exact hlt
    have hle := not_lt.1 hlt
    rcases hle.lt_or_eq with hl | he
    · have hne : ¬ b.eq a = true := by rw [eq_iff hb ha]; exact hl.ne'
      have hs : s = { lower := ⟨.num a, ao⟩, upper := ⟨.num b, bo⟩, lowerLt := ao, upperGt := bo, int := int, compl := compl } := by
        simp only [s, mkInterval, IVal.isVar, Item.gt, g, IVal.eq]; simp [hne]
      refine ⟨a, b, by rw [hs], by rw [hs], ha, hb, by rw [hs], by rw [hs], hle, fun x => ?_⟩
      rw [hs]
      simp only [Inside, if_pos hl]
    · have heq : b.eq a = true := by rw [eq_iff hb ha]; exact he.symm
      have hs : s = { lower := ⟨.num a, ao⟩, upper := ⟨.num b, bo⟩, lowerLt := ao && bo, upperGt := ao && bo, int := int, compl := compl } := by
        simp only [s, mkInterval, IVal.isVar, Item.gt, g, IVal.eq, heq]
        cases ao <;> cases bo <;> simp [heq]
      refine ⟨a, b, by rw [hs], by rw [hs], ha, hb, by rw [hs], by rw [hs], hle, fun x => ?_⟩
      rw [hs]
      simp only [Inside, he, lt_irrefl, if_false, Between]
      constructor
      · rintro ⟨h1 | h1, h2 | h2⟩
        · exact absurd h1 h2.not_gt
        · exact absurd h2.1 h1.ne'
        · exact absurd h1.1 h2.ne
        · have := h1.2; refine ⟨h1.1, ?_⟩; cases ao <;> simp_all
      · rintro ⟨h1, h2⟩
        have : (ao && bo) = false := by rcases h2 with h2 | h2 <;> simp [h2]
        exact ⟨.inr ⟨h1, this⟩, .inr ⟨h1, this⟩⟩

theorem notInt_ok {x : Num} (hx : ∃ q, x.rat = some q) : ∃ b, x.notInt = .ok b ∧ (b = false ↔ x.isInteger) := by
  obtain ⟨q, hq⟩ := hx
  cases x with
  | int z => exact ⟨false, rfl, by simp only [true_iff]; exact ⟨z, rfl⟩⟩
  | flt r =>
    refine ⟨_, rfl, ?_⟩
    simp only [decide_eq_false_iff_not, not_not, Num.isInteger, Num.pos]
    constructor
    · intro h
      refine ⟨r.num, ?_⟩
      have := Rat.den_eq_one_iff r |>.1 h
      rw [this]
    · rintro ⟨z, hz⟩
      have : r = (z : ℚ) := by
        have := WithBot.coe_injective hz
        exact WithTop.coe_injective this
      rw [this]; simp
  | _ => simp [Num.rat] at hq

end MSets

namespace MSets

/-! ### integer intervals -/

theorem mem_rangeInt {a b z : Int} : z ∈ rangeInt a b ↔ a ≤ z ∧ z < b := by
  simp only [rangeInt, List.mem_map, List.mem_range]
  constructor
  · rintro ⟨k, hk, rfl⟩; omega
  · rintro ⟨h1, h2⟩; exact ⟨(z - a).toNat, by omega, by omega⟩

theorem rangeInt_sorted (a b : Int) : (rangeInt a b).Pairwise (· < ·) := by
  simp only [rangeInt, List.pairwise_map]
  exact List.pairwise_lt_range.imp (fun h => by omega)

theorem rangeInt_length (a b : Int) : (rangeInt a b).length = (b - a).toNat := by simp [rangeInt]

/-- 1 for an open limit -/
def b2i (b : Bool) : Int := if b then 1 else 0

/-- the constructed interval with integer limits: ordered limits with their own flags; the operators follow the flags unless the limits are equal -/
theorem mkInterval_int (a b : Int) (ao bo int compl : Bool) :
    ∃ lo hi lop hip, (lo < hi ∨ (lo = hi ∧ a = b)) ∧ ((lo = a ∧ lop = ao ∧ hi = b ∧ hip = bo) ∨ (lo = b ∧ lop = bo ∧ hi = a ∧ hip = ao)) ∧
      mkInterval ⟨.num (.int a), ao⟩ ⟨.num (.int b), bo⟩ int compl =
        { lower := ⟨.num (.int lo), lop⟩, upper := ⟨.num (.int hi), hip⟩, lowerLt := if lo = hi then lop && hip else lop, upperGt := if lo = hi then lop && hip else hip,
          int := int, compl := compl } := by
  by_cases h : b < a
  · refine ⟨b, a, bo, ao, .inl h, .inr ⟨rfl, rfl, rfl, rfl⟩, ?_⟩
    have : ¬ a = b := by omega
    have h2 : ¬ b = a := by omega
    simp [mkInterval, IVal.isVar, Item.gt, Num.lt, IVal.eq, Num.eq, h, this, h2]
  · refine ⟨a, b, ao, bo, by omega, .inl ⟨rfl, rfl, rfl, rfl⟩, ?_⟩
    by_cases e : a = b
    · subst e
      cases ao <;> cases bo <;> simp [mkInterval, IVal.isVar, Item.gt, Num.lt, IVal.eq, Num.eq]
    · have h2 : ¬ b = a := by omega
      simp [mkInterval, IVal.isVar, Item.gt, Num.lt, IVal.eq, Num.eq, h, e, h2]

theorem intInterval_contains (lo hi z : Int) (lop hip l u : Bool) (d : Option Dict) :
    (Interval.contains { lower := ⟨.num (.int lo), lop⟩, upper := ⟨.num (.int hi), hip⟩, lowerLt := l, upperGt := u, int := true, compl := false } (.num (.int z)) d = .ok true) ↔
      (lo + b2i l ≤ z ∧ z < hi - b2i u + 1) := by
  have hl : Interval.limits { lower := ⟨.num (.int lo), lop⟩, upper := ⟨.num (.int hi), hip⟩, lowerLt := l, upperGt := u, int := true, compl := false } d = (.num (.int lo), .num (.int hi)) := by
    cases d <;> rfl
  simp only [Interval.contains, Interval.body, hl, Interval.test, Interval.ops, Num.notInt, cmpLower, cmpUpper, if_true, Bool.false_eq_true, if_false]
  cases l <;> cases u <;> simp only [b2i, Num.lt, Num.le, if_true, Bool.false_eq_true, if_false]
  · by_cases h : lo ≤ z <;> simp [h, Except.map] <;> omega
  · by_cases h : lo ≤ z <;> simp [h, Except.map] <;> omega
  · by_cases h : lo < z <;> simp [h, Except.map] <;> omega
  · by_cases h : lo < z <;> simp [h, Except.map] <;> omega

theorem intInterval_iter (lo hi : Int) (lop hip l u : Bool) :
    Interval.iter { lower := ⟨.num (.int lo), lop⟩, upper := ⟨.num (.int hi), hip⟩, lowerLt := l, upperGt := u, int := true, compl := false } =
      .ok ((rangeInt (lo + b2i lop) (hi - b2i hip + 1)).map Num.int) := by
  have e1 : (if lop = true then (Num.int lo).addInt 1 else Num.int lo) = .int (lo + b2i lop) := by cases lop <;> simp [b2i, Num.addInt]
  have e2 : (if hip = true then (Num.int hi).addInt (-1) else Num.int hi) = .int (hi - b2i hip) := by cases hip <;> simp [b2i, Num.addInt, Int.sub_eq_add_neg]
  simp only [Interval.iter, e1, e2, Num.eq, Bool.or_false, Bool.not_true, Bool.false_eq_true, if_false, Num.lt]
  generalize lo + b2i lop = x
  generalize hi - b2i hip = y
  by_cases h : y < x
  · simp only [h, decide_true, if_true]
    have : rangeInt x (y + 1) = [] := by simp only [rangeInt]; rw [show (y + 1 - x).toNat = 0 by omega]; rfl
    rw [this]; rfl
  · simp only [h, decide_false, Bool.false_eq_true, if_false]
    by_cases e : x = y
    · subst e
      simp only [decide_true, if_true]
      have : rangeInt x (x + 1) = [x] := by simp only [rangeInt]; rw [show (x + 1 - x).toNat = 1 by omega]; simp
      rw [this]; rfl
    · simp [e]

theorem intInterval_card0 (lo hi : Int) (lop hip l u c : Bool) (h : lo ≤ hi) :
    Interval.card0 { lower := ⟨.num (.int lo), lop⟩, upper := ⟨.num (.int hi), hip⟩, lowerLt := l, upperGt := u, int := true, compl := c } =
      .int (if lo = hi ∧ (lop && hip) = false then 1 else ((hi - b2i hip + 1) - (lo + b2i lop)).toNat) := by
  have e1 : (if lop = true then (Num.int lo).addInt 1 else Num.int lo) = .int (lo + b2i lop) := by cases lop <;> simp [b2i, Num.addInt]
  have e2 : (if hip = true then (Num.int hi).addInt (-1) else Num.int hi) = .int (hi - b2i hip) := by cases hip <;> simp [b2i, Num.addInt, Int.sub_eq_add_neg]
  simp only [Interval.card0, IVal.isVar, Bool.or_false, Bool.false_eq_true, if_false, if_true, e1, e2, Num.sub, Num.addInt, Num.lt, Num.eq]
  cases lop <;> cases hip <;> simp [b2i] <;> split <;> (try split) <;> (try split) <;> simp <;> omega

end MSets
