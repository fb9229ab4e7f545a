import Verif.Model.MathSet
/-
`vars`, `has_vars` and `is_empty_set_complement` of the set objects (src/itertree/itree_mathsets.py).
-/
namespace MSets

/-- the names among item values (itree_mathsets.py 488-494) -/
def varsOf : List IVal → List String
  | [] => []
  | .var s :: r => s :: varsOf r
  | .num _ :: r => varsOf r

mutual
/-- `s.vars` (itree_mathsets.py 488-494), as collected by the constructors: the limits of an interval (793-798), the items of a roster (1613-1617), the variables of the members of a combination; other
containers have no `vars` (1851-1857).  Simplification: a Python set, here a list (repetitions do not matter). -/
def MSet.vars : MSet → List String
  | .interval s => varsOf [s.lower.val, s.upper.val]
  | .roster items _ => varsOf items
  | .combine items _ _ => MSet.varsL items
  | .other _ _ => []
/-- the names of the members, itree_mathsets.py 488-494 -/
def MSet.varsL : List MSet → List String
  | [] => []
  | s :: ss => s.vars ++ MSet.varsL ss
end

/-- `s.has_vars` (itree_mathsets.py 478-485) -/
def MSet.hasVars (s : MSet) : Bool := !s.vars.isEmpty

/-- `s.is_empty_set_complement` (itree_mathsets.py 935-945, 1659-1671, 1994-2005); other containers have no such attribute -/
def MSet.emptyCompl : MSet → Bool
  | .interval s => s.compl && s.card0.eq (.int 0)
  | .roster items c => c && items.isEmpty
  | .combine items u c => c && (MSet.combine items u c).card.eq (.int 0)
  | .other _ _ => false

end MSets
