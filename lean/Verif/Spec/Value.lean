import Verif.Base.Tag
/-
Specification: Python values whose dicts have pairwise different keys – as every Python dict has.
-/
namespace ITree

mutual
/-- the keys of every dict in the value are pairwise different (`!=`) -/
def Val.OK : Val → Prop
  | .list l => Val.OKL l
  | .dict d => Val.OKD d ∧ d.Pairwise fun a b => Val.pyEq a.1 b.1 = false ∧ Val.pyEq b.1 a.1 = false
  | .model _ v => Val.OK v
  | _ => True
def Val.OKL : List Val → Prop
  | [] => True
  | v :: l => Val.OK v ∧ Val.OKL l
def Val.OKD : List (Val × Val) → Prop
  | [] => True
  | (k, v) :: l => Val.OK k ∧ Val.OK v ∧ Val.OKD l
end

end ITree
