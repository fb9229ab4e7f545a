import Verif.Spec.Rep
/-
What subtraction of trees is expected to deliver.
-/
namespace ITree

/-- the list without the entries at the positions `ps` (positions counted from `k`) -/
def withoutFrom {α} (ps : List Nat) : Nat → List α → List α
  | _, [] => []
  | k, x :: l => if k ∈ ps then withoutFrom ps (k + 1) l else x :: withoutFrom ps (k + 1) l

/-- the list without the entries at the positions `ps` -/
def without {α} (ps : List Nat) (l : List α) : List α := withoutFrom ps 0 l

end ITree
