import Verif.Model.Tree
/-
Specification: iteration orders of finite trees.
-/
namespace ITree
namespace Tree

mutual
/-- pre-order of the items for which they and everything above them match -/
def preF (f : Id → Bool) : Tree → List Id
  | node i _ _ _ _ ks => if f i then i :: preFL f ks else []
def preFL (f : Id → Bool) : List Tree → List Id
  | [] => []
  | k :: ks => preF f k ++ preFL f ks
end

mutual
/-- post-order of the items for which they and everything above them match -/
def postF (f : Id → Bool) : Tree → List Id
  | node i _ _ _ _ ks => if f i then postFL f ks ++ [i] else []
def postFL (f : Id → Bool) : List Tree → List Id
  | [] => []
  | k :: ks => postF f k ++ postFL f ks
end

mutual
/-- the same tree with the children of every item in the opposite order -/
def mirror : Tree → Tree
  | node i t v f l ks => node i t v f l (mirrorL ks)
def mirrorL : List Tree → List Tree
  | [] => []
  | k :: ks => mirrorL ks ++ [mirror k]
end

mutual
/-- the items `n` levels below the root of the tree, from left to right -/
def atLevel : Nat → Tree → List Id
  | 0, node i _ _ _ _ _ => [i]
  | n + 1, node _ _ _ _ _ ks => atLevelL n ks
def atLevelL : Nat → List Tree → List Id
  | _, [] => []
  | n, k :: ks => atLevel n k ++ atLevelL n ks
end

mutual
/-- number of levels below the root -/
def height : Tree → Nat
  | node _ _ _ _ _ ks => heightL ks
/-- 1 + the largest height, 0 for no trees -/
def heightL : List Tree → Nat
  | [] => 0
  | k :: ks => max (height k + 1) (heightL ks)
end

end Tree

/-- The generator ends and has delivered `l` (for every sufficiently large number of rounds). -/
def Delivers {α : Type} (run : Nat → Option α) (l : α) : Prop := ∃ N, ∀ n, N ≤ n → run n = some l

end ITree
