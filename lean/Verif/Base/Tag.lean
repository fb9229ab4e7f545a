/-
Tags (any hashable Python object), values and exception kinds of the heap model.
-/
namespace ITree

/-- Tags.  `int`, `str` and two-element tuples (`pair`) are distinguished because `__getitem__` dispatches on the type of
its argument and such objects may be an index/key as well as a tag; `other n` stands for the n-th equivalence class of all other
hashable objects. `noTag` is the constant `NoTag` (itree_helpers.py). -/
inductive Tag where
  | noTag
  | int (i : Int)
  | str (s : String)
  | pair (a b : Tag)
  | other (n : Nat)
  deriving DecidableEq, Repr, Inhabited

/-- Values stored in items. `model k v` is an `iTValueModel` object of kind `k` currently holding `v`. -/
inductive Val where
  | noValue
  | none
  | bool (b : Bool)
  | int (i : Int)
  | str (s : String)
  | list (l : List Val)
  | dict (l : List (Val × Val))
  | model (k : Nat) (v : Val)
  | obj (n : Nat)
  deriving Repr, Inhabited

/-- kinds of Python exceptions (`file`: FileNotFoundError and other errors of the operating system) -/
inductive Err where
  | permission | recursion | key | index | value | type | attribute | lookup | syntaxErr | runtime | file
  deriving DecidableEq, Repr, Inhabited

/-- Python `type(v)` as a number -/
def Val.ty : Val → Nat
  | .noValue => 0 | .none => 1 | .bool _ => 2 | .int _ => 3 | .str _ => 4 | .list _ => 5 | .dict _ => 6
  | .model k _ => 8 + k | .obj _ => 7

/-- is the object hashable: lists, dicts and value models (`iTValueModel` defines `__eq__` and no `__hash__`, itree_data.py 233) are not -/
def Val.hashable : Val → Bool
  | .list _ | .dict _ | .model _ _ => false
  | _ => true

mutual
/-- Python `==` on values (bool/int compare numerically, lists element-wise, dicts as maps). -/
def Val.pyEq : Val → Val → Bool
  | .noValue, .noValue => true
  | .none, .none => true
  | .bool a, .bool b => a == b
  | .bool a, .int b => (if a then 1 else 0) == b
  | .int a, .bool b => a == (if b then 1 else 0)
  | .int a, .int b => a == b
  | .str a, .str b => a == b
  | .list a, .list b => Val.pyEqList a b
  | .dict a, .dict b => a.length == b.length && Val.pySub a b
  | .model k a, .model k' b => k == k' && Val.pyEq a b
  | .obj a, .obj b => a == b
  | _, _ => false
def Val.pyEqList : List Val → List Val → Bool
  | [], [] => true
  | x :: xs, y :: ys => Val.pyEq x y && Val.pyEqList xs ys
  | _, _ => false
/-- every binding of the first dict is in the second (first binding of the key) -/
def Val.pySub : List (Val × Val) → List (Val × Val) → Bool
  | [], _ => true
  | (k, v) :: r, b => Val.pyHas k v b && Val.pySub r b
def Val.pyHas (k v : Val) : List (Val × Val) → Bool
  | [] => false
  | (k', v') :: r => if Val.pyEq k k' then Val.pyEq v v' else Val.pyHas k v r
end

end ITree
