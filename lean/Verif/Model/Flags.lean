import Verif.Model.Mutate
/-
Flags (itree_main.py 828-905, itree_private.py 138-200) and values (itree_main.py 921-1109).
-/
namespace ITree

/-! ### flags -/

/-- `_set_flags(item, flags)` with `_init=False` (itree_private.py 139-149) -/
def setFlags1 (h : Heap) (x : Id) (f : Flags) : Res Unit :=
  if (h.flags x).has Flags.linked then (h, .error .permission)
  else (h.modify x fun n => { n with flags := n.flags ||| f }, .ok ())

/-- `for i in items: set_flags(i, f)` (itree_private.py 139-192) -/
def setFlagsAll (h : Heap) (f : Flags) : List Id → Res Unit
  | [] => (h, .ok ())
  | x :: xs =>
    let r := setFlags1 h x f
    match r.2 with
    | .error e => (r.1, .error e)
    | .ok () => setFlagsAll r.1 f xs

/-- `set_tree_read_only` (itree_main.py 843-859) -/
def setTreeReadOnly (h : Heap) (x : Id) : Res Unit :=
  setFlagsAll h Flags.readOnlyTree (x :: (h.tree x).deep.map Tree.id)

/-- `set_value_read_only` (itree_main.py 889-895) -/
def setValueReadOnly (h : Heap) (x : Id) : Res Unit := setFlags1 h x Flags.readOnlyValue

/-- `_unset_flags` (itree_private.py 195-200) -/
def unsetFlagsOp (h : Heap) (x : Id) (f : Flags) : Res Unit :=
  if (h.flags x).has Flags.linked then (h, .error .permission)
  else (h.modify x fun n => { n with flags := unsetFlags n.flags f }, .ok ())

/-- `unset_tree_read_only` (itree_main.py 861-873) -/
def unsetTreeReadOnly (h : Heap) (x : Id) : Res Unit :=
  match h.par x with
  | some p => if (h.flags p).has Flags.readOnlyTree then (h, .error .permission) else unsetFlagsOp h x Flags.readOnlyTree
  | none => unsetFlagsOp h x Flags.readOnlyTree

/-- `unset_value_read_only` (itree_main.py 897-906) -/
def unsetValueReadOnly (h : Heap) (x : Id) : Res Unit := unsetFlagsOp h x Flags.readOnlyValue

/-- `is_tree_read_only` (itree_main.py 829-841) -/
def isTreeReadOnly (h : Heap) (x : Id) : Bool := (h.flags x).has (Flags.readOnlyTree ||| Flags.linked)
/-- `is_value_read_only` (itree_main.py 876-887) -/
def isValueReadOnly (h : Heap) (x : Id) : Bool := (h.flags x).has (Flags.readOnlyValue ||| Flags.linked)

/-! ### values -/

/-- the `set` method of value models: for model kind `k` the accepted and cast value or none (ValueError).  Arbitrary here; the concrete
models are in `Model/Data`. (itree_data.py 412-424) -/
abbrev ModelSet := Nat → Val → Option Val

/-- is the object an `iTValueModel` (itree_data.py 514-520) -/
def Val.isModel : Val → Bool | .model _ _ => true | _ => false

/-- what is stored when `new` is set over `old` (itree_main.py 944-953, 1010-1019): new stored object and returned old value -/
def setOver (ms : ModelSet) (old new : Val) : Except Err (Val × Val) :=
  match old, new with
  | .model _ _, .model _ _ => .ok (new, old)
  | .model k v, w => match ms k w with
    | some w' => .ok (.model k w', v)
    | none => .error .value
  | _, _ => .ok (new, old)

/-- write the value slot (itree_main.py 921-1109) -/
def Heap.setVal (h : Heap) (x : Id) (v : Val) : Heap := h.modify x fun n => { n with value := v }

/-- `set_value` (itree_main.py 921-954) -/
def setValue (ms : ModelSet) (h : Heap) (x : Id) (v : Val) : Res Val :=
  if (h.flags x).has Flags.valueProtected then (h, .error .permission) else
  match setOver ms (h.node x).value v with
  | .ok (new, old) => (h.setVal x new, .ok old)
  | .error e => (h, .error e)

/-- `INF = float('inf')` (itree_helpers.py 290); no model value is a float, the object 0 stands for it. -/
def Val.inf : Val := .obj 0

/-- the integer an object used as list index denotes (`__index__`) (Python itself; used in itree_main.py 956-1109) -/
def Val.asIndex : Val → Option Int
  | .int i => some i
  | .bool b => some (if b then 1 else 0)
  | _ => .none

/-- lookup in the bindings of a dict (Python itself; used in itree_main.py 956-1109) -/
def dictGet : List (Val × Val) → Val → Option Val
  | [], _ => none
  | (k, v) :: r, q => if Val.pyEq k q then some v else dictGet r q
/-- dict assignment (Python itself; used in itree_main.py 956-1109) -/
def dictSet : List (Val × Val) → Val → Val → List (Val × Val)
  | [], q, w => [(q, w)]
  | (k, v) :: r, q, w => if Val.pyEq k q then (k, w) :: r else (k, v) :: dictSet r q w
/-- dict deletion (Python itself; used in itree_main.py 1085-1109) -/
def dictDel : List (Val × Val) → Val → List (Val × Val)
  | [], _ => []
  | (k, v) :: r, q => if Val.pyEq k q then r else (k, v) :: dictDel r q

/-- Python `obj[key]`.  Dicts, lists and strings; every other object has no `__getitem__`. (Python itself; used in itree_main.py 956-1109) -/
def Val.item (o key : Val) : Except Err Val :=
  match o with
  | .dict d => if key.hashable then (match dictGet d key with | some v => .ok v | .none => .error .key) else .error .type
  | .list l => match key.asIndex with
    | .none => .error .type
    | some i => match pyGet l i with | some v => .ok v | .none => .error .index
  | .str s => match key.asIndex with
    | .none => .error .type
    | some i => match pyGet s.toList i with | some c => .ok (.str (String.singleton c)) | .none => .error .index
  | _ => .error .type

/-- Python `obj[key] = v`: the object afterwards (Python itself; used in itree_main.py 956-1020) -/
def Val.setItem (o key v : Val) : Except Err Val :=
  match o with
  | .dict d => if key.hashable then .ok (.dict (dictSet d key v)) else .error .type
  | .list l => match key.asIndex with
    | .none => .error .type
    | some i => match pyGet l i with | some _ => .ok (.list (pySet l i v)) | .none => .error .index
  | _ => .error .type

/-- Python `obj.append(v)`: the object afterwards (Python itself; used in itree_main.py 956-1020) -/
def Val.appendItem (o v : Val) : Except Err Val :=
  match o with
  | .list l => .ok (.list (l ++ [v]))
  | _ => .error .attribute

/-- Python `obj.pop(key)`: result and the object afterwards (Python itself; used in itree_main.py 1085-1109) -/
def Val.popItem (o key : Val) : Except Err (Val × Val) :=
  match o with
  | .dict d => if key.hashable then (match dictGet d key with | some v => .ok (v, .dict (dictDel d key)) | .none => .error .key) else .error .type
  | .list l => match key.asIndex with
    | .none => .error .type
    | some i => match pyGet l i with | some v => .ok (v, .list (pyDel l i)) | .none => .error .index
  | _ => .error .attribute

/-- the stored object after `set_key_value(key, v)` and the returned value (itree_main.py 999-1020) -/
def setKeyOver (ms : ModelSet) (o key v : Val) : Except Err (Val × Val) :=
  match o.item key with
  | .error .key => match o.setItem key v with
    | .ok o' => .ok (o', .noValue)
    | .error e => .error e
  | .error .type =>
    if Val.pyEq key Val.inf then
      match o.appendItem v with
      | .ok o' => .ok (o', .noValue)
      | .error e => .error e
    else .error .type
  | .error e => .error e
  | .ok old => match setOver ms old v with
    | .error e => .error e
    | .ok (new, ret) => match o.setItem key new with   -- for a model `set` works inside the object already stored there
      | .ok o' => .ok (o', ret)
      | .error e => .error e

/-- `set_key_value` (itree_main.py 956-1020) -/
def setKeyValue (ms : ModelSet) (h : Heap) (x : Id) (key v : Val) : Res Val :=
  if (h.flags x).has Flags.valueProtected then (h, .error .permission) else
  match setKeyOver ms (h.node x).value key v with
  | .ok (o, ret) => (h.setVal x o, .ok ret)
  | .error e => (h, .error e)

/-- `value.value if hasattr(value, 'is_iTValueModel') else value` (itree_main.py 1038, 1067) -/
def Val.unwrap : Val → Val
  | .model _ v => v
  | v => v

/-- `get_value` (itree_main.py 1022-1039) -/
def getValue (h : Heap) (x : Id) : Val := (h.node x).value.unwrap

/-- `get_key_value` (itree_main.py 1041-1068) -/
def getKeyValue (h : Heap) (x : Id) (key : Val) : Except Err Val :=
  match (h.node x).value.item key with
  | .ok v => .ok v.unwrap
  | .error e => .error e

/-- `del_value` (itree_main.py 1070-1083): checks only READ_ONLY_VALUE -/
def delValue (h : Heap) (x : Id) : Res Val :=
  if (h.flags x).has Flags.readOnlyValue then (h, .error .permission)
  else (h.setVal x .noValue, .ok (h.node x).value)

/-- `del_key_value` (itree_main.py 1085-1109): checks only READ_ONLY_VALUE, then `value.pop(key)` -/
def delKeyValue (h : Heap) (x : Id) (key : Val) : Res Val :=
  if (h.flags x).has Flags.readOnlyValue then (h, .error .permission) else
  match (h.node x).value.popItem key with
  | .ok (ret, o) => (h.setVal x o, .ok ret)
  | .error e => (h, .error e)

end ITree
