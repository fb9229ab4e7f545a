import Verif.Base.Py
/-
Specification of Python slices, independent of the way the model computes them: the n-th selected element is the element at `a + n * step` as long as
this position lies before (for a negative step: after) the bound `b`.
-/
namespace ITree

/-- where a slice bound lies on a list of length `len` for a positive step -/
def upBound (len : Nat) (i : Int) : Int := if i < 0 then max 0 (len + i) else min i len
/-- … for a negative step: -1 is "before the first element" -/
def downBound (len : Nat) (i : Int) : Int := if i < 0 then max (-1) (len + i) else min i (len - 1)

/-- `r` is the list `l[start:stop:step]` -/
def IsSlice {α} (l : List α) (s : PySlice) (r : List α) : Prop :=
  let st := s.step.getD 1
  (0 < st ∧ ∀ n : Nat, r[n]? = let i := (match s.start with | none => 0 | some a => upBound l.length a) + n * st
      if i < (match s.stop with | none => (l.length : Int) | some b => upBound l.length b) then l[i.toNat]? else none) ∨
  (st < 0 ∧ ∀ n : Nat, r[n]? = let i := (match s.start with | none => (l.length : Int) - 1 | some a => downBound l.length a) + n * st
      if (match s.stop with | none => -1 | some b => downBound l.length b) < i then l[i.toNat]? else none)

end ITree
