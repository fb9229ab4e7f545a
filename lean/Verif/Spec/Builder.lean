import Verif.Spec.MathSet
import Verif.Model.Builder
/-
Specification of set-builder definitions: what a statement says about a number, the documented domains.
-/
namespace MSets

/-- the place of a limit that is a number -/
def IVal.place : IVal → Option Ext
  | .num n => some n.pos
  | .var _ => none

/-- the meaning of the comparison signs -/
def Cmp.rel : Cmp → Ext → Ext → Prop
  | .le, a, b => a ≤ b
  | .lt, a, b => a < b
  | .ge, a, b => b ≤ a
  | .gt, a, b => b < a

/-- a region of the number line -/
inductive Region where
  | all | positive | nonNegative | negative | nonPositive | atLeastOne | bit
  deriving DecidableEq, Repr

def Region.has : Region → Ext → Prop
  | .all, _ => True
  | .positive, x => 0 < x
  | .nonNegative, x => 0 ≤ x
  | .negative, x => x < 0
  | .nonPositive, x => x ≤ 0
  | .atLeastOne, x => (((1 : ℚ) : WithTop ℚ) : Ext) ≤ x
  | .bit, x => 0 ≤ x ∧ x ≤ (((1 : ℚ) : WithTop ℚ) : Ext)

/-- the documented domains (itree_mathsets.py 1143-1160 and the names listed as replacements): integers only or not, region -/
def domains : List (String × Bool × Region) :=
  [("N", true, .nonNegative), ("N0", true, .nonNegative), ("N+", true, .atLeastOne), ("N0+", true, .nonNegative), ("N+0", true, .nonNegative),
   ("Z", true, .all), ("Z+", true, .positive), ("Z0+", true, .nonNegative), ("Z-", true, .negative), ("Z0-", true, .nonPositive),
   ("int", true, .all), ("integer", true, .all), ("Integer", true, .all),
   ("R", false, .all), ("R+", false, .positive), ("R0+", false, .nonNegative), ("R-", false, .negative), ("R0-", false, .nonPositive),
   ("Q", false, .all), ("Q+", false, .positive), ("Q0+", false, .nonNegative), ("Q-", false, .negative), ("Q0-", false, .nonPositive),
   ("float", false, .all), ("Float", false, .all), ("double", false, .all), ("Double", false, .all),
   ("bool", true, .bit), ("boolean", true, .bit), ("Boolean", true, .bit)]

/-- what a statement says about the number `x` (variables: nothing is said here) -/
def Part.says (x : Num) : Part → Prop
  | .two lv lo uo uv => (∃ a, lv.place = some a ∧ lo.rel a x.pos) ∧ ∃ b, uv.place = some b ∧ uo.rel x.pos b
  | .right uo uv => ∃ b, uv.place = some b ∧ uo.rel x.pos b
  | .left lv lo => ∃ a, lv.place = some a ∧ lo.rel a x.pos
  | .eqRight neg v => ∃ a, v.place = some a ∧ (if neg then x.pos ≠ a else x.pos = a)
  | .eqLeft v neg => ∃ a, v.place = some a ∧ (if neg then x.pos ≠ a else x.pos = a)
  | .dom name => ∃ r ∈ domains, r.1.toList = name ∧ (r.2.1 = true → x.isInteger) ∧ r.2.2.has x.pos

/-- what the whole definition says -/
def saysAll (x : Num) (first : Option Part) (last : Part) : Prop := (∀ p, first = some p → p.says x) ∧ last.says x

end MSets
