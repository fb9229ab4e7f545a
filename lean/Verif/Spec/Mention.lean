import Verif.Spec.Rep
import Verif.Model.More
/-
Specification: the items a call is given.
-/
namespace ITree

/-- the items among some arguments -/
def argItems (as : List Arg) : List Id := as.filterMap fun a => match a with | .item i => some i | .val _ => none

/-- the items a call is made on or gets as argument -/
def Call.mentions : Call → List Id
  | .new _ _ sub _ => argItems sub
  | .newLink _ _ sub _ _ _ => argItems sub
  | .append p a => p :: argItems [a]
  | .appendLeft p a => p :: argItems [a]
  | .insert p _ a => p :: argItems [a]
  | .extend p as => p :: argItems as
  | .extendTree p u => [p, u]
  | .extendLeft p as => p :: argItems as
  | .del p _ => [p]
  | .remove p x => [p, x]
  | .setItem p _ a => p :: argItems [a]
  | .move x _ => [x]
  | .rename x _ => [x]
  | .reverse p => [p]
  | .rotate p _ => [p]
  | .sort p _ _ => [p]
  | .clear p _ => [p]
  | .copy _ => []
  | .setTreeReadOnly x => [x]
  | .unsetTreeReadOnly x => [x]
  | .setValueReadOnly x => [x]
  | .unsetValueReadOnly x => [x]
  | .setValue x _ => [x]
  | .setKeyValue x _ _ => [x]
  | .delValue x => [x]
  | .delKeyValue x _ => [x]
  | .readIdx x => [x]
  | .readTagIdx x => [x]

/-- … for the further calls; copies, sums, products and evaluations only read what they are given -/
def More.mentions : More → List Id
  | .deepReverse _ x => [x]
  | .deepSort _ _ _ x => [x]
  | .deepRemove p _ _ => [p]
  | .deepUnsetTreeReadOnly x _ _ => [x]
  | .deepUnsetValueReadOnly x _ _ => [x]
  | .deepSetValueReadOnly x _ _ => [x]
  | .forceCache x _ _ _ => [x]
  | .removeMany p l => p :: l
  | .clearLocal p _ => [p]
  | .add _ _ => []
  | .mul _ _ => []
  | .mulTree _ _ => []
  | .rmul _ _ => []
  | .build _ => []

def AnyCall.mentions : AnyCall → List Id
  | .call c => c.mentions
  | .more m => m.mentions

end ITree
