import Verif.Model.DataModel
/-
Specification of the value models: documentation of `iTValueModel` (itree_data.py 51-155).
-/
namespace DModels

/-- one item is fine: it is the result of the model's cast and lies in the `contains` object -/
def GoodItem (S : Spec) (w : DVal) : Prop := (∃ v, S.cast v = .ok w) ∧ ∀ c, S.contains = some c → c w = .ok true

/-- the value is one good item or a (nested) list of good items -/
inductive GoodItems (S : Spec) : DVal → Prop
  | item {w} : GoodItem S w → GoodItems S w
  | list {l : List DVal} : (∀ w ∈ l, GoodItems S w) → GoodItems S (.list l)

/-- a dimension is within its limit -/
def Dim.Allows : Dim → Nat → Prop
  | .any, _ => True
  | .inf, _ => True
  | .int n, s => (s : Int) ≤ n

/-- The documented meaning of a model shape `T` for a value with dimensions `V`:
every dimension is within its limit, and
– there are as many dimensions as entries, or
– there are fewer, and the first missing one is `Any` (optional), or
– there are more, and `T` ends with an `Any` after another entry ("(4,ANY): … here the user can also put infinite dimensions in"; "(Any,): single values or any 1 dimensional object"). -/
def FitsShape (T : List Dim) (V : List Nat) : Prop :=
  (∀ (i : Nat) t s, T[i]? = some t → V[i]? = some s → Dim.Allows t s) ∧
  (V.length = T.length ∨ (V.length < T.length ∧ T[V.length]? = some .any) ∨ (T.length < V.length ∧ 2 ≤ T.length ∧ T.getLast? = some .any))

/-- number of elements of a sequence (a string is a one-dimensional object) -/
def DVal.size : DVal → Nat
  | .list l => l.length
  | .tuple l => l.length
  | .dict l => l.length
  | .str s => s.length
  | _ => 0

mutual
/-- the largest size of the sequences at nesting depth k ("the maximum shape") -/
def DVal.maxSize : Nat → DVal → Nat
  | 0, v => v.size
  | k + 1, .list l => maxSizeL k l
  | k + 1, .tuple l => maxSizeL k l
  | k + 1, .dict l => maxSizeK k l
  | _ + 1, _ => 0
def maxSizeL (k : Nat) : List DVal → Nat
  | [] => 0
  | v :: vs => max (v.maxSize k) (maxSizeL k vs)
def maxSizeK (k : Nat) : List (DVal × DVal) → Nat
  | [] => 0
  | (v, _) :: vs => max (v.maxSize k) (maxSizeK k vs)
end

mutual
/-- the value contains no string of length one -/
def DVal.NoChar : DVal → Prop
  | .list l => NoCharL l
  | .tuple l => NoCharL l
  | .dict l => NoCharK l
  | .str s => s.length ≠ 1
  | _ => True
def NoCharL : List DVal → Prop
  | [] => True
  | v :: vs => v.NoChar ∧ NoCharL vs
def NoCharK : List (DVal × DVal) → Prop
  | [] => True
  | (v, _) :: vs => v.NoChar ∧ NoCharK vs
end

end DModels
