import Verif.Props.MathSet
/-
Model of the value models (itree_data.py 51-898).  Parameters: what `str()`, `int(str)` of Python deliver, the membership test of the user's
`contains` object (which may raise).  `bytes`, numpy arrays, iterators (`__next__` without length) and user classes with surprising attributes are not in the value domain.
-/
namespace DModels

/-- exceptions (itree_data.py 254-410) -/
inductive DErr where
  | value | type | attribute | name
  deriving DecidableEq, Repr

/-- values handed to a model (no code: the Python objects given to itree_data.py 164-424) -/
inductive DVal where
  | noValue
  | none
  | bool (b : Bool)
  | int (z : Int)
  | flt (n : Nat)
  | str (s : List Char)
  | list (l : List DVal)
  | tuple (l : List DVal)
  | dict (l : List (DVal × DVal))
  | obj (n : Nat)
  deriving Repr, Inhabited

/-- one entry of the parameter `shape` (itree_data.py 293-326) -/
inductive Dim where
  | any | inf | int (n : Int)
  deriving DecidableEq, Repr

/-- the part of a model fixed by the constructor: `check_and_cast_single_item`, `contains`, `shape` (`none` is `Any`) (itree_data.py 164-231) -/
structure Spec where
  cast : DVal → Except DErr DVal
  contains : Option (DVal → Except DErr Bool)
  shape : Option (List Dim)

/-- check, cast and test of one item (itree_data.py 385-396, 264-279): a string is one item -/
def Spec.leaf (S : Spec) (v : DVal) : Except DErr DVal :=
  match S.cast v with
  | .error e => .error e
  | .ok w => match S.contains with
    | Option.none => .ok w
    | some c => match c w with
      | .ok true => .ok w
      | .ok false => .error .value
      | .error e => .error e

mutual
/-- iterables are checked item by item and become lists (`_recursive_check`, itree_data.py 254-291; `__contains__` 383-396); a dict is iterated over its keys -/
def Spec.check (S : Spec) : DVal → Except DErr DVal
  | .list l => (S.checkL l).map .list
  | .tuple l => (S.checkL l).map .list
  | .dict l => (S.checkK l).map .list
  | .noValue => S.leaf .noValue
  | .none => S.leaf .none
  | .bool b => S.leaf (.bool b)
  | .int z => S.leaf (.int z)
  | .flt n => S.leaf (.flt n)
  | .str s => S.leaf (.str s)
  | .obj n => S.leaf (.obj n)
/-- the elements of a list, itree_data.py 254-291 -/
def Spec.checkL (S : Spec) : List DVal → Except DErr (List DVal)
  | [] => .ok []
  | v :: vs => match S.check v with
    | .error e => .error e
    | .ok w => (S.checkL vs).map (w :: ·)
/-- the keys and values of a dict, itree_data.py 254-291 -/
def Spec.checkK (S : Spec) : List (DVal × DVal) → Except DErr (List DVal)
  | [] => .ok []
  | (k, _) :: vs => match S.check k with
    | .error e => .error e
    | .ok w => (S.checkK vs).map (w :: ·)
end

/-- the loop of `_check_shape` (itree_data.py 308-318) from position i on: `none` – the loop ended, `some r` – returned or raised; T: target shape -/
def shapeLoop (T : List Dim) : Nat → List Nat → Option (Except DErr Bool)
  | _, [] => Option.none
  | i, s :: V =>
    if T.length ≤ i then (if T ≠ [] ∧ T.getLast? = some .any then some (.ok true) else some (.error .value))
    else match T[i]? with
      | some (.int n) => if n < (s : Int) then some (.error .value) else shapeLoop T (i + 1) V
      | _ => shapeLoop T (i + 1) V

/-- `_check_shape` (itree_data.py 293-326) -/
def checkShape (T : List Dim) (V : List Nat) : Except DErr Bool :=
  match shapeLoop T 0 V with
  | some r => r
  | Option.none =>
    if V = [] ∧ T ≠ [] ∧ T[0]? ≠ some .any then .error .value
    else if V.length < T.length then (if T[V.length]? = some .any then .ok true else .error .value)
    else .ok true

/-- `len(v)` and iteration of a value with `__len__`; other values count as empty in `zip_longest` (itree_data.py 328-368) -/
def DVal.elems : DVal → List DVal
  | .list l => l
  | .tuple l => l
  | .dict l => l.map (·.1)
  | .str s => s.map fun c => .str [c]
  | _ => []

/-- the loop that keeps the maximum of the dimensions (itree_data.py 350-357) -/
def mergeMax : List Nat → List Nat → List Nat
  | old, [] => old
  | [], new => new
  | o :: old, n :: new => (if o < n then n else o) :: mergeMax old new

/-- length of the longest (itree_data.py 328-368) -/
def maxOf (l : List Nat) : Nat := l.foldl max 0

/-- `zip_longest(*rows, fillvalue=0)` (Python's itertools, used in itree_data.py 328-368) -/
def zipLongest (rows : List (List DVal)) : List (List DVal) :=
  (List.range (maxOf (rows.map List.length))).map fun j => rows.map fun r => r.getD j (.int 0)

/-- `_get_max_shape` (itree_data.py 328-368); the first argument bounds the depth of the recursion -/
def maxShape : Nat → DVal → List Nat
  | 0, _ => []
  | n + 1, v =>
    match v with
    | .str s => if s.length ≤ 1 then [] else [s.length]
    | v =>
      let s0 := v.elems.length
      if s0 = 0 then []
      else
        let cols := zipLongest (v.elems.map DVal.elems)
        let s1 := cols.length
        let sub := (cols.flatten.map (maxShape n)).foldl mergeMax []
        if sub ≠ [] then s0 :: s1 :: sub else if s1 ≠ 0 then [s0, s1] else [s0]

mutual
/-- nesting depth (bound for the recursion of itree_data.py 328-368) -/
def DVal.depth : DVal → Nat
  | .list l => depthL l + 1
  | .tuple l => depthL l + 1
  | .dict l => depthK l + 1
  | .str _ => 2
  | _ => 1
/-- of a list of values, itree_data.py 328-368 -/
def depthL : List DVal → Nat
  | [] => 0
  | v :: vs => max v.depth (depthL vs)
/-- of a dict, itree_data.py 328-368 -/
def depthK : List (DVal × DVal) → Nat
  | [] => 0
  | (k, _) :: vs => max k.depth (depthK vs)
end

/-- the try block of `__contains__` (itree_data.py 382-399): the value to be stored -/
def Spec.verify (S : Spec) (v : DVal) : Except DErr DVal :=
  match S.check v with
  | .error e => .error e
  | .ok w => match S.shape with
    | Option.none => .ok w
    | some T => match checkShape T (maxShape w.depth w) with
      | .ok _ => .ok w
      | .error e => .error e

/-- a model object (itree_data.py 164-231) -/
structure VM where
  spec : Spec
  value : DVal
  last : Option DErr

/-- is the object the constant `NoValue` (itree_helpers.py 305-313, itree_data.py 207-231) -/
def DVal.isNo : DVal → Bool
  | .noValue => true
  | _ => false

/-- `__contains__(value, _return_value=True)` (itree_data.py 370-410): the value delivered and the object -/
def VM.probe (M : VM) (v : DVal) : DVal × VM :=
  if v.isNo then (.noValue, M)
  else match M.spec.verify v with
    | .ok w => (w, { M with last := Option.none })
    | .error e => (M.value, { M with last := some e })

/-- `value in model` (itree_data.py 370-410) -/
def VM.test (M : VM) (v : DVal) : Bool × VM :=
  if v.isNo then (true, M)
  else match M.spec.verify v with
    | .ok _ => (true, { M with last := Option.none })
    | .error e => (false, { M with last := some e })

/-- `model.set(value)` (itree_data.py 412-424): the old value or an exception, and the object -/
def VM.set (M : VM) (v : DVal) : Except DErr DVal × VM :=
  let r := M.probe v
  match r.2.last with
  | some e => (.error e, r.2)
  | Option.none => (.ok M.value, { r.2 with value := r.1 })

/-- `model.clear()` (itree_data.py 497-501) -/
def VM.clear (M : VM) : VM := { M with value := .noValue }

/-- the constructor (itree_data.py 207-231); with a value that is rejected the handler reads `self._value` before it exists -/
def VM.new (S : Spec) (v : DVal) : Except DErr VM :=
  if v.isNo then .ok ⟨S, .noValue, Option.none⟩
  else match S.verify v with
    | .ok w => .ok ⟨S, w, Option.none⟩
    | .error _ => .error .attribute

/-- what a user does with a model (itree_data.py 412-443, 497-501) -/
inductive Op where
  | set (v : DVal)
  | test (v : DVal)
  | clear

/-- one call (itree_data.py 412-443, 497-501) -/
def VM.step (M : VM) : Op → VM
  | .set v => (M.set v).2
  | .test v => (M.test v).2
  | .clear => M.clear

/-- a history (itree_data.py 412-443, 497-501) -/
def VM.run (M : VM) : List Op → VM
  | [] => M
  | o :: os => (M.step o).run os

/-! ### the models of the library -/

/-- `iTAnyValueModel.check_and_cast_single_item` (itree_data.py 635-643) -/
def castAny (v : DVal) : Except DErr DVal := .ok v

/-- `iTIntModel`, `iTInt8Model` … (itree_data.py 661-664, 680-683): `type(value_item) in {int, str}` (a bool is no int here); `parse` is `int(str)` -/
def castInt (parse : List Char → Option Int) : DVal → Except DErr DVal
  | .int z => .ok (.int z)
  | .str s => match parse s with
    | some z => .ok (.int z)
    | Option.none => .error .value
  | _ => .error .value

/-- membership in the class attribute `interval` (itree_data.py 671-683) -/
def inLimits (lo hi : Int) : DVal → Except DErr Bool
  | .int z => match (MSets.mkInterval ⟨.num (.int lo), false⟩ ⟨.num (.int hi), false⟩ false false).contains (.num (.int z)) Option.none with
    | .ok b => .ok b
    | .error _ => .error .type
  | _ => .error .type

/-- `iTInt8Model.__init__` without `contains` and the classes derived from it (itree_data.py 667-753): limits lo, hi -/
def intSpec (parse : List Char → Option Int) (lo hi : Int) (shape : Option (List Dim)) : Spec := ⟨castInt parse, some (inLimits lo hi), shape⟩

/-- the limits of the classes (itree_data.py 671, 705, 713, 721, 729, 737, 745, 753) -/
def limits : List (Int × Int) :=
  [(-128, 127), (0, 255), (-32768, 32767), (0, 65535), (-2147483648, 2147483647), (0, 2 ^ 32 - 1), (-9223372036854775808, 9223372036854775807), (0, 18446744073709551615)]

/-- what the constructor of the integer models does with the argument `contains` (itree_data.py 674-677): the truth value of a set object is `len(set)`, and
`_mSetBase.__len__` calls the property `cardinality` (itree_mathsets.py 429-437): TypeError.  `true`: `contains` is a set object of the library -/
def intCtor (parse : List Char → Option Int) (lo hi : Int) (shape : Option (List Dim)) (givenSet : Bool) : Except DErr Spec :=
  if givenSet then .error .type else .ok (intSpec parse lo hi shape)

/-- `iTStrModel` (itree_data.py 768-769) -/
def castStr (str : DVal → List Char) (v : DVal) : Except DErr DVal := .ok (.str (str v))

/-- `iTASCIIStrModel` (itree_data.py 831-837) -/
def castAscii (str : DVal → List Char) (v : DVal) : Except DErr DVal :=
  if (str v).all fun c => c.toNat < 128 then .ok (.str (str v)) else .error .value

/-- the pattern models (itree_data.py 775-783, 802-810): with a pattern the constructor uses the names `iTFilter`/`iTFilterIntersection`, which exist nowhere in the package -/
def patternCtor (str : DVal → List Char) (shape : Option (List Dim)) (contains : Option (DVal → Except DErr Bool)) (pattern : Option (List Char)) : Except DErr Spec :=
  match pattern with
  | some _ => .error .name
  | Option.none => .ok ⟨castStr str, contains, shape⟩

/-- `iTEnumerateModel.cast_dict` (itree_data.py 869-878) for integer keys with string labels: labels first (the last key with that label wins), then every key stands for itself -/
def castDict (d : List (Int × List Char)) : DVal → Option Int
  | .int z => if z ∈ d.map (·.1) then some z else Option.none
  | .bool b => if (if b then 1 else 0) ∈ d.map (·.1) then some (if b then 1 else 0) else Option.none
  | .str s => (d.reverse.find? fun kv => kv.2 = s).map (·.1)
  | _ => Option.none

/-- `iTEnumerateModel.check_and_cast_single_item` (itree_data.py 880-887); floats equal to a key are not modelled -/
def castEnum (d : List (Int × List Char)) (v : DVal) : Except DErr DVal :=
  if v.isNo then .ok .noValue
  else match castDict d v with
    | some k => .ok (.int k)
    | Option.none => .error .value

/-- `str(model)` of an enumeration model holding one key: `enumerate_dict.get` (itree_data.py 878, 619-628, 606-608) -/
def enumStr (d : List (Int × List Char)) : DVal → Option (List Char)
  | .int k => (d.find? fun kv => kv.1 = k).map (·.2)
  | _ => Option.none

end DModels
