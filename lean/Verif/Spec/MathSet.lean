import Verif.Model.MathSet
import Mathlib.Order.WithBot
/-
Specification for the mathematical sets: the extended number line and what it means to lie between two limits.
-/
namespace MSets

/-- the extended rational line -/
abbrev Ext := WithBot (WithTop ℚ)

/-- the place of a number on the line (nan has none; it is mapped to the bottom but always excluded) -/
def Num.pos : Num → Ext
  | .int z => ((z : ℚ) : WithTop ℚ)
  | .flt q => (q : WithTop ℚ)
  | .posInf => ((⊤ : WithTop ℚ) : Ext)
  | .negInf => ⊥
  | .nan => ⊥

/-- not above the upper, not below the lower limit; an open limit is excluded itself -/
def Between (lo : Ext) (loOpen : Bool) (x : Ext) (hi : Ext) (hiOpen : Bool) : Prop :=
  (lo < x ∨ (x = lo ∧ loOpen = false)) ∧ (x < hi ∨ (x = hi ∧ hiOpen = false))

/-- the members of the interval with limits `a`, `b` (each open or closed) given in any order; with equal limits of which at least one is closed the set has just this element -/
def Inside (a : Ext) (aOpen : Bool) (b : Ext) (bOpen : Bool) (x : Ext) : Prop :=
  if a < b then Between a aOpen x b bOpen
  else if b < a then Between b bOpen x a aOpen
  else x = a ∧ (aOpen = false ∨ bOpen = false)

/-- an integer value (`3` as well as `3.0`) -/
def Num.isInteger (x : Num) : Prop := ∃ z : ℤ, x.pos = (((z : ℚ) : WithTop ℚ) : Ext)

/-- a single object: number, string or something else, but no iterable and no tuple with variable values -/
def El.scalar : El → Prop
  | .num _ => True
  | .str _ => True
  | .other => True
  | _ => False

end MSets
