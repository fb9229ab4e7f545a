import Verif.Spec.Serialize
/-
The natural naming of Python objects by the tags and values of the heap model.
-/
namespace ITree

open Json (PV)

/-- the Python object a tag is -/
def tagObj : Tag → PV
  | .noTag => .const 1
  | .int i => .int i
  | .str s => .str s.toList
  | .pair a b => .seq .tuple [tagObj a, tagObj b]
  | .other n => .obj n

/-- the tag of a Python object (other objects than the ones above do not occur) -/
def objTag : PV → Tag
  | .int i => .int i
  | .str s => .str (String.ofList s)
  | .seq .tuple [a, b] => .pair (objTag a) (objTag b)
  | .obj n => .other n
  | _ => .noTag

mutual
/-- the Python object a value is; a value model is an object of its class, made from its value -/
def valObj : Val → PV
  | .noValue => .const 0
  | .none => .none
  | .bool b => .bool b
  | .int i => .int i
  | .str s => .str s.toList
  | .list l => .seq .list (valObjL l)
  | .dict l => .map "dict".toList (valObjM l)
  | .model k v => .init (List.replicate k 'M') [] true [valObj v]
  | .obj n => .obj n
def valObjL : List Val → List PV
  | [] => []
  | x :: xs => valObj x :: valObjL xs
def valObjM : List (Val × Val) → List (PV × PV)
  | [] => []
  | (k, v) :: xs => (valObj k, valObj v) :: valObjM xs
end

mutual
def objVal : PV → Val
  | .none => .none
  | .bool b => .bool b
  | .int i => .int i
  | .str s => .str (String.ofList s)
  | .seq .list l => .list (objValL l)
  | .map _ l => .dict (objValM l)
  | .init c _ _ [v] => .model c.length (objVal v)
  | .obj n => .obj n
  | _ => .noValue
def objValL : List PV → List Val
  | [] => []
  | x :: xs => objVal x :: objValL xs
def objValM : List (PV × PV) → List (Val × Val)
  | [] => []
  | (k, v) :: xs => (objVal k, objVal v) :: objValM xs
end

theorem objTag_tagObj : ∀ t : Tag, objTag (tagObj t) = t
  | .noTag => rfl
  | .int _ => rfl
  | .str s => by simp [tagObj, objTag]
  | .pair a b => by simp [tagObj, objTag, objTag_tagObj a, objTag_tagObj b]
  | .other _ => rfl

mutual
theorem objVal_valObj : ∀ v : Val, objVal (valObj v) = v
  | .noValue => rfl
  | .none => rfl
  | .bool _ => rfl
  | .int _ => rfl
  | .str s => by simp [valObj, objVal]
  | .list l => by simp only [valObj, objVal, objValL_valObjL l]
  | .dict l => by simp only [valObj, objVal, objValM_valObjM l]
  | .model k v => by simp only [valObj, objVal, objVal_valObj v, List.length_replicate]
  | .obj _ => rfl
theorem objValL_valObjL : ∀ l : List Val, objValL (valObjL l) = l
  | [] => rfl
  | x :: xs => by simp only [valObjL, objValL, objVal_valObj x, objValL_valObjL xs]
theorem objValM_valObjM : ∀ l : List (Val × Val), objValM (valObjM l) = l
  | [] => rfl
  | (k, v) :: xs => by simp only [valObjM, objValM, objVal_valObj k, objVal_valObj v, objValM_valObjM xs]
end

/-- the natural naming -/
def stdNames : Names where
  tagPV := tagObj
  pvTag := objTag
  valPV := valObj
  pvVal := objVal
  tag_left := objTag_tagObj
  val_left := objVal_valObj
  noTag := rfl
  noValue := rfl

end ITree
