import Verif.Model.Heap
/-
Model of the filter classes (itree_filters.py 76-674).  A filter is called with an item and looks at its tag, value or flags only.
Parameters: `fnmatch.fnmatch` (standard library), the membership test of the interval object given by the user (which may raise), the
membership test `key in model` of a stored `iTValueModel` (may raise).  `bytes`, floats and numpy arrays are not in the value domain; objects
outside the domain (`Val.obj`) have no `values`, `keys`, `index` attribute, are not iterable, are not numbers.
-/
namespace ITree

/-- what a filter sees of an item (itree_filters.py 76-674) -/
structure FItem where
  tag : Tag
  value : Val
  flags : Flags

/-- the constructor arguments of the filter classes; a pattern is a string; a set is known by its membership test (itree_filters.py 76-674) -/
inductive Filt where
  | flags (mask : Flags)                          -- has_item_flags 76-101
  | tag (t : Tag)                                 -- is_item_tag 104-135
  | tagFn (pat : String)                          -- has_item_tag_fnmatch 138-170
  | value (v : Val)                               -- has_item_value 173-213
  | dictValue (v : Val)                           -- has_item_value_dict_value 216-249
  | listValue (v : Val)                           -- has_item_value_list_value 252-285
  | valueFn (pat : String)                        -- has_item_value_fnmatch 288-322
  | dictValueFn (pat : String)                    -- has_item_value_dict_value_fnmatch 326-365
  | listItemFn (pat : String)                     -- has_item_value_list_item_fnmatch 368-407
  | valueIn (inSet : Val → Except Err Bool)       -- is_item_value_in 410-442
  | dictValueIn (inSet : Val → Except Err Bool)   -- has_item_value_dict_value_in 445-479
  | listItemIn (inSet : Val → Except Err Bool)    -- has_item_value_list_item_in 482-518
  | dictKey (k : Val)                             -- has_item_value_dict_key 521-554
  | listIdx (i : Int)                             -- has_item_value_list_idx 557-591
  | dictKeyFn (pat : String)                      -- has_item_value_dict_key_fnmatch 594-635
  | dictKeyIn (inSet : Val → Except Err Bool)     -- has_item_value_dict_key_in 638-674

/-- what the filters need from Python: `fnmatch`, substring test `a in b`, `x in model` (itree_filters.py 138-170, 410-442) -/
structure FEnv where
  fn : String → String → Bool
  sub : String → String → Bool
  modelHas : Nat → Val → Val → Except Err Bool

/-- `value.values()`; `none`: AttributeError (itree_filters.py 216-249) -/
def Val.valuesOf : Val → Option (List Val)
  | .dict l => some (l.map (·.2))
  | _ => Option.none

/-- `value.keys()`; `none`: AttributeError (itree_filters.py 594-674) -/
def Val.keysOf : Val → Option (List Val)
  | .dict l => some (l.map (·.1))
  | _ => Option.none

/-- `iter(value)`; `none`: TypeError (a string delivers its characters, a dict its keys) (itree_filters.py 252-285) -/
def Val.iterOf : Val → Option (List Val)
  | .list l => some l
  | .dict l => some (l.map (·.1))
  | .str s => some (s.toList.map fun c => .str (String.ofList [c]))
  | _ => Option.none

/-- `isinstance(v, Number)` (a bool is a number) (itree_filters.py 430-518) -/
def Val.isNumber : Val → Bool
  | .bool _ => true
  | .int _ => true
  | _ => false

/-- truth value of an object (opaque objects and models without `__bool__`/`__len__` are true; `NoValue` is an object) (itree_filters.py 194-213) -/
def Val.truth : Val → Bool
  | .none => false
  | .bool b => b
  | .int i => i ≠ 0
  | .str s => s ≠ ""
  | .list l => !l.isEmpty
  | .dict l => !l.isEmpty
  | _ => true

/-- Python index into a sequence of n elements (itree_filters.py 579-591) -/
def seqIdx (n : Nat) (i : Int) : Option Nat :=
  if 0 ≤ i then (if i < n then some i.toNat else Option.none) else if 0 ≤ (n : Int) + i then some ((n : Int) + i).toNat else Option.none

/-- `pat` matches a value of the same type (itree_filters.py 310-322) -/
def fnVal (E : FEnv) (pat : String) : Val → Bool
  | .str s => E.fn s pat
  | _ => false

/-- the loops `for v in …: if <test v>: return not self._invert`; `none`: the loop ended without return (itree_filters.py 237-285) -/
def loopRet (test : Val → Except Err Bool) (invert : Bool) : List Val → Except Err (Option Bool)
  | [] => .ok Option.none
  | v :: vs => match test v with
    | .ok true => .ok (some (!invert))
    | .ok false => loopRet test invert vs
    | .error e => .error e

/-- the test `isinstance(v, Number) and v in set` (itree_filters.py 430-518) -/
def numIn (s : Val → Except Err Bool) (v : Val) : Except Err Bool := if v.isNumber then s v else .ok false

/-- `with contextlib.suppress(c): <body>` followed by `return self._invert` (itree_filters.py 237-518) -/
def suppress (c : Err → Bool) (invert : Bool) : Except Err (Option Bool) → Except Err Bool
  | .error e => if c e then .ok invert else .error e
  | .ok (some b) => .ok b
  | .ok Option.none => .ok invert

/-- an attribute/iterator that may be missing: the exception `e` is raised then (itree_filters.py 237-518) -/
def orRaise (e : Err) : Option α → Except Err α
  | some a => .ok a
  | Option.none => .error e

/-- `key in value` (`none` = raises) (itree_filters.py 538-554) -/
def keyIn (E : FEnv) (k : Val) : Val → Except Err Bool
  | .dict l => if k.hashable then .ok (l.any fun kv => Val.pyEq k kv.1) else .error .type
  | .list l => .ok (l.any fun x => Val.pyEq k x)
  | .str s => (match k with | .str t => .ok (E.sub t s) | _ => .error .type)
  | .model n v => E.modelHas n v k
  | _ => .error .type

/-- the element at an index of a value with an `index` method (itree_filters.py 579-591) -/
def atIdx (i : Int) : Val → Option Val
  | .list l => (seqIdx l.length i).bind (l[·]?)
  | .str s => ((seqIdx s.toList.length i).bind (s.toList[·]?)).map fun c => .str (String.ofList [c])
  | _ => Option.none

/-- `a if c else b` with the classes' habit `return not self._invert` in the hit branch, `return self._invert` after it (itree_filters.py 126-135) -/
def hit (b invert : Bool) : Bool := if b then !invert else invert

/-- the exceptions the `suppress` clauses name (itree_filters.py 237-674) -/
def isAttr (e : Err) : Bool := e == .attribute
/-- itree_filters.py 237-674 -/
def isAttrOrType (e : Err) : Bool := e == .attribute || e == .type
/-- `contextlib.suppress(Exception)`, itree_filters.py 237-674 -/
def isAny (_ : Err) : Bool := true

/-- the `__call__` methods, one case per class (lines: see `Filt`) (itree_filters.py 76-674) -/
def Filt.call (E : FEnv) (f : Filt) (invert : Bool) (x : FItem) : Except Err Bool :=
  match f with
  | .flags mask => .ok (if invert then !decide (x.flags &&& mask ≠ 0#6) else decide (x.flags &&& mask ≠ 0#6))
  | .tag t => .ok (if invert then decide (x.tag ≠ t) else decide (x.tag = t))
  | .tagFn pat =>
    let result := match x.tag with | .str s => E.fn s pat | _ => false
    .ok (if invert then !result else result)
  | .value v => .ok (if invert then !Val.pyEq x.value v else Val.pyEq x.value v)
  | .dictValue v => suppress isAny invert ((orRaise .attribute x.value.valuesOf).bind (loopRet (fun y => .ok (Val.pyEq v y)) invert))
  | .listValue v => suppress isAny invert ((orRaise .type x.value.iterOf).bind (loopRet (fun y => .ok (Val.pyEq v y)) invert))
  | .valueFn pat => .ok (hit (fnVal E pat x.value) invert)
  | .dictValueFn pat => suppress isAttr invert ((orRaise .attribute x.value.valuesOf).bind (loopRet (fun y => .ok (fnVal E pat y)) invert))
  | .listItemFn pat => suppress isAttr invert ((orRaise .type x.value.iterOf).bind (loopRet (fun y => .ok (fnVal E pat y)) invert))
  | .valueIn s => (numIn s x.value).map (hit · invert)
  | .dictValueIn s => suppress isAttr invert ((orRaise .attribute x.value.valuesOf).bind (loopRet (numIn s) invert))
  | .listItemIn s => suppress isAttrOrType invert ((orRaise .type x.value.iterOf).bind (loopRet (numIn s) invert))
  | .dictKey k => suppress isAny invert ((keyIn E k x.value).map fun b => some (if invert then !b else b))
  | .listIdx i => suppress isAny invert ((orRaise .index (atIdx i x.value)).map fun v => if v.truth then some (!invert) else Option.none)
  | .dictKeyFn pat => suppress isAttr invert ((orRaise .attribute x.value.keysOf).bind (loopRet (fun y => .ok (fnVal E pat y)) invert))
  | .dictKeyIn s => suppress isAny invert ((orRaise .attribute x.value.keysOf).bind (loopRet (numIn s) invert))

/-- `iter_items_over_filter_method` (itree_filters.py 62-71): the answers in order, stops at the first exception -/
def answers (E : FEnv) (f : Filt) (invert : Bool) : List FItem → Except Err (List Bool)
  | [] => .ok []
  | x :: xs => match f.call E invert x with
    | .ok b => (match answers E f invert xs with | .ok l => .ok (b :: l) | .error e => .error e)
    | .error e => .error e

end ITree
