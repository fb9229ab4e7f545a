import Verif.Model.SetItems
import Verif.Proofs.MathSet
/-
C79: set items (numbers, variables, limits) compare by their values; equality and hash.
-/
namespace MSets

/-- the number of an item that is no variable and not nan -/
def Item.Finite (a : Item) (x : Num) : Prop := a.val = .num x ∧ x ≠ .nan

/-- C79. Items with numbers are ordered like their numbers on the extended number line, whatever their complement flags; of `<`, `>` at most one holds, `<=` is "not >", `>=` is "not <". -/
theorem C79_order {a b : Item} {x y : Num} (ha : a.Finite x) (hb : b.Finite y) :
    a.ltOp b = some (decide (x.pos < y.pos)) ∧ a.leOp b = some (decide (x.pos ≤ y.pos)) ∧ a.gtOp b = some (decide (y.pos < x.pos)) ∧ a.geOp b = some (decide (y.pos ≤ x.pos)) ∧
      a.leOp b = (a.gtOp b).map (!·) ∧ a.geOp b = (a.ltOp b).map (!·) := by
  have e1 : ∀ {x y : Num}, x ≠ .nan → y ≠ .nan → x.lt y = decide (x.pos < y.pos) := fun hx hy => by rw [Bool.eq_iff_iff, lt_iff hx hy]; simp
  have e2 : ∀ {x y : Num}, x ≠ .nan → y ≠ .nan → x.le y = decide (x.pos ≤ y.pos) := fun hx hy => by rw [Bool.eq_iff_iff, le_iff hx hy]; simp
  simp only [Item.ltOp, Item.leOp, Item.gtOp, Item.geOp, Item.cmp, ha.1, hb.1, e1 ha.2 hb.2, e1 hb.2 ha.2, e2 ha.2 hb.2, e2 hb.2 ha.2, true_and, Option.map_some, Option.some.injEq]
  constructor <;> rw [Bool.eq_iff_iff] <;> simp

example : (Item.mk (.num (.int 2)) true).leOp ⟨.num (.int 5), false⟩ = ((Item.mk (.num (.int 2)) true).gtOp ⟨.num (.int 5), false⟩).map (!·) ∧ (Item.mk (.num (.int 2)) true).ltOp ⟨.num (.int 5), false⟩ = some true :=
  ⟨(C79_order (x := .int 2) (y := .int 5) ⟨rfl, by simp⟩ ⟨rfl, by simp⟩).2.2.2.2.1, by decide +kernel⟩

/-- C79. With a variable on either side no comparison gives an answer. -/
theorem C79_vars {a b : Item} (h : a.val.isVar = true ∨ b.val.isVar = true) : a.ltOp b = none ∧ a.leOp b = none ∧ a.gtOp b = none ∧ a.geOp b = none := by
  obtain ⟨av, ac⟩ := a
  obtain ⟨bv, bc⟩ := b
  cases av <;> cases bv <;> simp_all [IVal.isVar, Item.ltOp, Item.leOp, Item.gtOp, Item.geOp, Item.cmp]

example : (Item.mk (.var "x") false).ltOp ⟨.num (.int 1), false⟩ = none := (C79_vars (Or.inl rfl)).1

/-- an item whose value is not nan -/
def Item.Sane (a : Item) : Prop := a.val ≠ .num .nan

theorem IVal.same_iff {a b : IVal} (ha : a ≠ .num .nan) (hb : b ≠ .num .nan) : a.eq b = true ↔ (∃ x y, a = .num x ∧ b = .num y ∧ x.pos = y.pos) ∨ ∃ s, a = .var s ∧ b = .var s := by
  cases a with
  | num x => cases b with
    | num y => simp [IVal.eq, MSets.eq_iff (a := x) (b := y) (by simpa using ha) (by simpa using hb)]
    | var s => simp [IVal.eq]
  | var s => cases b with
    | num y => simp [IVal.eq]
    | var t =>
      simp only [IVal.eq, beq_iff_eq, IVal.var.injEq, reduceCtorEq, false_and, exists_false, false_or]
      exact ⟨fun e => ⟨s, rfl, e.symm⟩, fun ⟨u, a, b⟩ => a.trans b.symm⟩

theorem IVal.same_refl {a : IVal} (ha : a ≠ .num .nan) : a.eq a = true := (IVal.same_iff ha ha).2 (by cases a <;> simp)

theorem IVal.same_symm {a b : IVal} (ha : a ≠ .num .nan) (hb : b ≠ .num .nan) : a.eq b = b.eq a := by
  rw [Bool.eq_iff_iff, IVal.same_iff ha hb, IVal.same_iff hb ha]
  constructor <;> rintro (⟨x, y, e1, e2, e3⟩ | ⟨s, e1, e2⟩)
  · exact Or.inl ⟨y, x, e2, e1, e3.symm⟩
  · exact Or.inr ⟨s, e2, e1⟩
  · exact Or.inl ⟨y, x, e2, e1, e3.symm⟩
  · exact Or.inr ⟨s, e2, e1⟩

theorem IVal.same_trans {a b c : IVal} (ha : a ≠ .num .nan) (hb : b ≠ .num .nan) (hc : c ≠ .num .nan) (h1 : a.eq b = true) (h2 : b.eq c = true) : a.eq c = true := by
  rw [IVal.same_iff ha hb] at h1
  rw [IVal.same_iff hb hc] at h2
  rw [IVal.same_iff ha hc]
  rcases h1 with ⟨x, y, e1, e2, e3⟩ | ⟨s, e1, e2⟩ <;> rcases h2 with ⟨y', z, e4, e5, e6⟩ | ⟨s', e4, e5⟩
  · rw [e2] at e4; cases e4; exact Or.inl ⟨x, z, e1, e5, e3.trans e6⟩
  · rw [e2] at e4; cases e4
  · rw [e2] at e4; cases e4
  · rw [e2] at e4; cases e4; exact Or.inr ⟨s, e1, e5⟩

/-- C79. Items equal themselves, and equality does not depend on the side. -/
theorem C79_eq_refl_symm {a b : Item} (ha : a.Sane) (hb : b.Sane) : a.eq a = true ∧ a.eq b = b.eq a := by
  refine ⟨by simp [Item.eq, IVal.same_refl ha], ?_⟩
  simp only [Item.eq, IVal.same_symm ha hb]
  cases a.compl <;> cases b.compl <;> rfl

/-- C79 (partial: the items have the same complement flag).  Equality is transitive, and equal items have the same hash, given that Python's hash of equal numbers and strings is the same. -/
theorem C79_eq_hash_partial {a b c : Item} (ha : a.Sane) (hb : b.Sane) (hc : c.Sane) (e1 : a.compl = b.compl) (e2 : b.compl = c.compl) (h1 : a.eq b = true) :
    (b.eq c = true → a.eq c = true) ∧ ∀ (hv : IVal → Int) (ht : Int → Int), (∀ u v : IVal, u.eq v = true → hv u = hv v) → a.hash hv ht = b.hash hv ht := by
  simp only [Item.eq, e1, e2, bne_self_eq_false, Bool.false_eq_true, if_false] at h1 ⊢
  exact ⟨fun h2 => IVal.same_trans ha hb hc h1 h2, fun hv ht H => by simp only [Item.hash, e1, e2, H _ _ h1]⟩

example : (Item.mk (.num (.int 2)) true).hash (fun | .num n => (n.rat.getD 0).num | .var _ => 7) (· + 1) = 3 := rfl
example : (Item.mk (.num (.int 2)) true).eq ⟨.num (.flt 2), true⟩ = true := by decide +kernel

/-- C79, the code against the expectation: an item with complement flag equals every other number without it, so `==` is neither transitive nor does it go with the hash, whatever hash function for numbers is used
that tells 2 from 3. -/
theorem C79_eq_hash_wrong (hv : IVal → Int) (ht : Int → Int) (h23 : hv (.num (.int 2)) ≠ hv (.num (.int 3))) :
    let a : Item := ⟨.num (.int 1), true⟩; let b : Item := ⟨.num (.int 2), false⟩; let c : Item := ⟨.num (.int 3), false⟩
    b.eq a = true ∧ a.eq c = true ∧ b.eq c = false ∧ (a.hash hv ht ≠ b.hash hv ht ∨ a.hash hv ht ≠ c.hash hv ht) := by
  refine ⟨by decide +kernel, by decide +kernel, by decide +kernel, ?_⟩
  by_contra h
  simp only [not_or, not_not, Item.hash, if_true, Bool.false_eq_true, if_false] at h
  exact h23 (h.1.symm.trans h.2)

/-- C79, the code against the expectation: `==` does not fit the order: the open limit 1 equals the closed limit 2 and is smaller, the open and the closed limit 1 are `<=` each other and differ. -/
theorem C79_order_eq_wrong : (Item.mk (.num (.int 1)) true).eq ⟨.num (.int 2), false⟩ = true ∧ (Item.mk (.num (.int 1)) true).ltOp ⟨.num (.int 2), false⟩ = some true ∧
    (Item.mk (.num (.int 1)) true).eq ⟨.num (.int 1), false⟩ = false ∧ (Item.mk (.num (.int 1)) true).leOp ⟨.num (.int 1), false⟩ = some true ∧ (Item.mk (.num (.int 1)) true).geOp ⟨.num (.int 1), false⟩ = some true := by
  decide +kernel

end MSets
