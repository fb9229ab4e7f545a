import Verif.Model.MathSet
/-
Comparisons and hash of `mSetItem` objects.  `==` is `Item.eq` in Model/MathSet.
-/
namespace MSets

/-- the four comparisons (itree_mathsets.py 280-331): None if a variable is involved, otherwise the comparison of the values by `op`; the complement flags are not looked at -/
def Item.cmp (op : Num → Num → Bool) (a b : Item) : Option Bool :=
  match a.val, b.val with
  | .num x, .num y => some (op x y)
  | _, _ => none

/-- `a < b` (itree_mathsets.py 293-304) -/
def Item.ltOp : Item → Item → Option Bool := Item.cmp Num.lt
/-- `a <= b` (itree_mathsets.py 320-331) -/
def Item.leOp : Item → Item → Option Bool := Item.cmp Num.le
/-- `a > b` (itree_mathsets.py 280-291) -/
def Item.gtOp : Item → Item → Option Bool := Item.cmp fun x y => y.lt x
/-- `a >= b` (itree_mathsets.py 306-318) -/
def Item.geOp : Item → Item → Option Bool := Item.cmp fun x y => y.le x

/-- `hash(item)` (itree_mathsets.py 403-406); `hv` is Python's hash of numbers and strings, `ht` the hash of the tuple `(value, True)` made of the hash of its first entry -/
def Item.hash (hv : IVal → Int) (ht : Int → Int) (a : Item) : Int := if a.compl then ht (hv a.val) else hv a.val

end MSets
