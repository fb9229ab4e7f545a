import Verif.Model.DataModel
/-
Model of the older data classes `iTDataModel`, `iTData` and `iTDataReadOnly` (itree_data.py 891-1510).  Parameters: the validator and formatter of a model object
(user code: a function of the value that may raise), what `str()` delivers, and which values may be dictionary keys and which of them are the same key.
A model object is an object reference `.obj n` the world knows as a model; other objects are opaque, have no attributes and cannot be iterated.
Not modelled: `deepcopy` (the code computes a copy and returns nothing), `__hash__` (hash of a fresh generator), `__repr__`, `fromkeys`, subclasses that override more than the validator and formatter.
-/
namespace Legacy
open DModels (DVal)

/-- exceptions (itree_data.py 902-913) -/
inductive LErr where
  | value | type | key | attribute | permission | other (n : Nat)
  deriving DecidableEq, Repr

/-- a model object (`__slots__`, itree_data.py 931) with the two methods a subclass defines -/
structure LM where
  validator : DVal → Except LErr DVal
  fmt : DVal → Except LErr (List Char)
  value : DVal
  cache : Option (List Char)

/-- `iTDataModel.__init__` (itree_data.py 933-940) -/
def LM.new (val : DVal → Except LErr DVal) (fmt : DVal → Except LErr (List Char)) (v : DVal) : Except LErr LM :=
  if v.isNo then .ok ⟨val, fmt, .noValue, none⟩
  else match val v with
    | .ok w => .ok ⟨val, fmt, w, none⟩
    | .error e => .error e

/-- `set` (itree_data.py 999-1013): the old value or the exception of the validator; `NoValue` does not touch the cached text -/
def LM.set (M : LM) (v : DVal) : Except LErr DVal × LM :=
  if v.isNo then (.ok M.value, { M with value := .noValue })
  else match M.validator v with
    | .ok w => (.ok M.value, { M with value := w, cache := none })
    | .error e => (.error e, M)

/-- `check` (itree_data.py 1017-1029): the answer; the accepted value is stored, the cached text stays -/
def LM.check (M : LM) (v : DVal) : Bool × LM :=
  match M.validator v with
  | .ok w => (true, { M with value := w })
  | .error _ => (false, M)

/-- `clear` (itree_data.py 1031-1039) -/
def LM.clear (M : LM) : DVal × LM := (M.value, { M with value := .noValue, cache := none })

/-- `format(model)` without a specification (itree_data.py 949-966) -/
def LM.format (M : LM) : Except LErr (List Char) × LM :=
  if M.value.isNo then (.ok "None".toList, M)
  else match M.cache with
    | some t => (.ok t, M)
    | none => match M.fmt M.value with
      | .ok t => (.ok t, { M with cache := some t })
      | .error e => (.error e, M)

/-- the calls on a model object (itree_data.py 993-1039) -/
inductive MOp where
  | set (v : DVal) | check (v : DVal) | clear | format

/-- one call on a model object (itree_data.py 993-1039) -/
def LM.step (M : LM) : MOp → LM
  | .set v => (M.set v).2
  | .check v => (M.check v).2
  | .clear => M.clear.2
  | .format => M.format.2

/-- a history (itree_data.py 993-1039) -/
def LM.run (M : LM) : List MOp → LM
  | [] => M
  | o :: os => (M.step o).run os

/-! ### the dictionary -/

/-- dictionary keys: `key v` is the key an object stands for (`none`: unhashable), `noKey` the constant `NoKey`, `replace` the string "replace_models" (Python's dict; itree_data.py 1105-1175) -/
structure Keys (K : Type) where
  key : DVal → Option K
  noKey : K
  replace : K

/-- all model objects (no code: all `iTDataModel` objects, itree_data.py 916-1085) -/
abbrev World := Nat → Option LM

/-- the model object a stored value is (itree_data.py 1105-1114) -/
def World.model? (W : World) : DVal → Option (Nat × LM)
  | .obj n => (W n).map fun m => (n, m)
  | _ => none

/-- an object after a call (itree_data.py 1000-1039) -/
def World.put (W : World) (n : Nat) (m : LM) : World := fun k => if k = n then some m else W k

/-- the items of an `iTData` object in order (itree_data.py 1105-1139) -/
abbrev Items (K : Type) := List (K × DVal)

section
variable {K : Type} [DecidableEq K]

/-- `dict.__getitem__` (Python's dict; used in itree_data.py 1177-1196) -/
def look : Items K → K → Option DVal
  | [], _ => none
  | (k, v) :: r, q => if k = q then some v else look r q

/-- `dict.__setitem__`: a known key keeps its place (Python's dict; used in itree_data.py 1141-1175) -/
def put : Items K → K → DVal → Items K
  | [], q, w => [(q, w)]
  | (k, v) :: r, q, w => if k = q then (k, w) :: r else (k, v) :: put r q w

/-- `dict.__delitem__` (Python's dict; used in itree_data.py 1198-1219) -/
def erase : Items K → K → Items K
  | [], _ => []
  | (k, v) :: r, q => if k = q then r else (k, v) :: erase r q

/-- `dict.update` (Python's dict; used in itree_data.py 1242-1295) -/
def putAll (d : Items K) (l : Items K) : Items K := l.foldl (fun d kv => put d kv.1 kv.2) d

/-- the two elements of an entry of a sequence given to `dict`: `none` – not iterable (Python's dict; used in itree_data.py 1115-1139) -/
def pairOf : DVal → Option (List DVal)
  | .list l => some l
  | .tuple l => some l
  | .dict l => some (l.map (·.1))
  | .str s => some (s.map fun c => .str [c])
  | _ => none

/-- the pairs `dict(seq)` reads from a sequence of entries: those read, and the exception that ended the reading (Python's dict; used in itree_data.py 1115-1139) -/
def readPairs (Q : Keys K) : List DVal → Items K × Option LErr
  | [] => ([], none)
  | e :: es => match pairOf e with
    | none => ([], some .type)
    | some [a, b] => match Q.key a with
      | none => ([], some .type)
      | some k => let r := readPairs Q es; ((k, b) :: r.1, r.2)
    | some _ => ([], some .value)

/-- the entries of a sequence given to `dict` (Python's dict; used in itree_data.py 1115-1139) -/
def entriesOf : DVal → Option (List DVal)
  | .dict l => some (l.map fun kv => .tuple [kv.1, kv.2])
  | .list l => some l
  | .tuple l => some l
  | .str s => some (s.map fun c => .str [c])
  | _ => none

/-- `dict.__init__(seq)` on an empty dictionary: an exception leaves the items stored before it (Python's dict; used in itree_data.py 1115-1139) -/
def dictOf (Q : Keys K) (v : DVal) : Items K × Option LErr :=
  match entriesOf v with
  | none => ([], some .type)
  | some l => (putAll [] (readPairs Q l).1, (readPairs Q l).2)

/-- what is given as `seq`: nothing (`None`), or an object, or an `iTData` object (itree_data.py 1115-1139) -/
inductive Seq (K : Type) where
  | obj (v : DVal)
  | data (d : Items K)

/-- `iTData.__init__` (itree_data.py 1115-1139): without keywords every exception of `dict.__init__(seq)` makes the object the value of `NoKey`, with keywords only a TypeError; the items stored before the
exception stay -/
def newData (Q : Keys K) (s : Seq K) (kw : Items K) : Except LErr (Items K) :=
  match s with
  | .obj .none => .ok (putAll [] kw)
  | .data d => .ok (putAll d kw)
  | .obj v => match dictOf Q v with
    | (d, none) => .ok (putAll d kw)
    | (d, some e) => if kw = [] ∨ e = .type then .ok (putAll (put d Q.noKey v) kw) else .error e

/-- `d[k] = v` (itree_data.py 1141-1175): the call of `set` passes an unknown keyword and raises a TypeError for every model, so the entry is overwritten;
`d[NoKey] = NoValue` deletes -/
def setItem (Q : Keys K) (d : Items K) (k : K) (v : DVal) : Items K :=
  if k = Q.noKey ∧ v.isNo = true then (if (look d k).isSome then erase d k else d)
  else put d k v

/-- `d.__getitem__(k)` / `d.get(k, default)` with `VALUE` (itree_data.py 1104-1107, 1177-1196, 1340-1360): the value of a model, other objects as they are -/
def getItem (W : World) (d : Items K) (k : K) : Except LErr DVal :=
  match look d k with
  | none => .error .key
  | some v => match W.model? v with
    | some (_, m) => .ok m.value
    | none => .ok v

/-- `d.get(k, return_type=FULL)` (itree_data.py 1105, 1340-1360) -/
def getFull (d : Items K) (k : K) : Except LErr DVal :=
  match look d k with
  | none => .error .key
  | some v => .ok v

/-- `d.get(k, return_type=STR)` (itree_data.py 1104, 1340-1360); `str` is `str()` of an object that is no model -/
def getStr (str : DVal → List Char) (W : World) (d : Items K) (k : K) : Except LErr (List Char) × World :=
  match look d k with
  | none => (.error .key, W)
  | some v => match W.model? v with
    | some (n, m) => (m.format.1, W.put n m.format.2)
    | none => (.ok (str v), W)

/-- `del d[k]` / `delete_item(k)` (itree_data.py 1198-1219, 1388-1402): the call of `clear` passes an unknown keyword and raises a TypeError (`dict.clear`, `list.clear` too), so the entry is removed -/
def delItem (d : Items K) (k : K) : Except LErr (Items K) :=
  if (look d k).isSome then .ok (erase d k) else .error .key

/-- `d.pop(k, default)` (itree_data.py 1312-1338): the stored object itself; `none` – no default given -/
def pop (d : Items K) (k : K) (default : Option DVal) : Except LErr DVal × Items K :=
  match look d k with
  | some v => (.ok v, erase d k)
  | none => match default with
    | some x => (.ok x, d)
    | none => (.error .key, d)

/-- the truth value of an object: objects and the class `NoValue` are true; `flt 0` is `0.0` (Python itself; used in itree_data.py 1289) -/
def truthy : DVal → Bool
  | .noValue => true
  | .none => false
  | .bool b => b
  | .int z => z ≠ 0
  | .flt n => n ≠ 0
  | .str s => s ≠ []
  | .list l => !l.isEmpty
  | .tuple l => !l.isEmpty
  | .dict l => !l.isEmpty
  | .obj _ => true

/-- the pre-check of one item in `update` (itree_data.py 1277-1285): is it to be handed to a model; KeyError and AttributeError are swallowed, also those of the validator -/
def preCheck (W : World) (d : Items K) (kv : K × DVal) : Except LErr Bool :=
  match W.model? kv.2 with
  | some _ => .ok false
  | none => match look d kv.1 with
    | none => .ok false
    | some v => match W.model? v with
      | none => .ok false
      | some (_, m) => match m.validator kv.2 with
        | .ok _ => .ok true
        | .error .key => .ok false
        | .error .attribute => .ok false
        | .error e => .error e

/-- the pre-check loop (itree_data.py 1275-1287) -/
def preChecks (W : World) (d : Items K) : Items K → Except LErr (List Bool)
  | [] => .ok []
  | kv :: r => match preCheck W d kv with
    | .error e => .error e
    | .ok b => (preChecks W d r).map (b :: ·)

/-- `m and model.set(v) or dict.__setitem__(k, v)` for one item (itree_data.py 1289): the old value decides whether the entry is overwritten as well -/
def fillOne (S : World × Items K) (kv : K × DVal) (m : Bool) : Option LErr × (World × Items K) :=
  if m then
    match look S.2 kv.1 with
    | none => (some .key, S)
    | some v => match S.1.model? v with
      | none => (some .attribute, S)
      | some (n, M) => match M.set kv.2 with
        | (.error e, M') => (some e, S.1.put n M', S.2)
        | (.ok old, M') => (none, S.1.put n M', if truthy old then S.2 else put S.2 kv.1 kv.2)
  else (none, S.1, put S.2 kv.1 kv.2)

/-- the filling loop (itree_data.py 1289-1290): an exception ends it, what was filled in before stays -/
def fill (S : World × Items K) : List ((K × DVal) × Bool) → Option LErr × (World × Items K)
  | [] => (none, S)
  | (kv, m) :: r => match fillOne S kv m with
    | (some e, S') => (some e, S')
    | (none, S') => fill S' r

/-- `d.update(E, **F)` (itree_data.py 1244-1290): the exception if any, and the state after the call; `rm`: the keyword `replace_models` if given – `False` is stored as an item -/
def update (Q : Keys K) (S : World × Items K) (s : Seq K) (kw : Items K) (rm : Option Bool) : Option LErr × (World × Items K) :=
  match rm with
  | some true => match newData Q s kw with
    | .error e => (some e, S)
    | .ok h => (none, S.1, putAll S.2 h)
  | _ =>
    match newData Q s (kw ++ if rm = some false then [(Q.replace, .bool false)] else []) with
    | .error e => (some e, S)
    | .ok h => match preChecks S.1 S.2 h with
      | .error e => (some e, S)
      | .ok ms => fill S (h.zip ms)

/-- the model objects in the items after `v.clear()` was called on each (itree_data.py 1305-1310) -/
def clearModels (W : World) : Items K → World
  | [] => W
  | (_, v) :: r => match W.model? v with
    | some (n, m) => clearModels (W.put n m.clear.2) r
    | none => clearModels W r

/-- `d.clear(values_only)` (itree_data.py 1300-1305): a model that is met twice is cleared twice -/
def clear (W : World) (d : Items K) (valuesOnly : Bool) : World × Items K :=
  if valuesOnly then (clearModels W d, putAll [] (d.filter fun kv => (W.model? kv.2).isSome))
  else (W, [])

/-- `model_items()` (itree_data.py 1417-1428) -/
def modelItems (W : World) (d : Items K) : Items K :=
  d.map fun kv => (kv.1, match W.model? kv.2 with | some (_, m) => m.value | none => kv.2)

/-- `is_key_empty(k)` (itree_data.py 1451-1461) -/
def isKeyEmpty (W : World) (d : Items K) (k : K) : Bool :=
  match look d k with
  | none => true
  | some v => match W.model? v with
    | some (_, m) => m.value.isNo
    | none => v.isNo

/-- `is_no_key_only` (itree_data.py 1437-1444) -/
def isNoKeyOnly (Q : Keys K) (d : Items K) : Bool := d.length = 1 ∧ (look d Q.noKey).isSome = true

/-- the calls on an `iTData` object that may change it; `popitem` and `setdefault` are inherited from `dict` (itree_data.py 1141-1401) -/
inductive DOp (K : Type) where
  | setItem (k : K) (v : DVal)
  | delItem (k : K)
  | pop (k : K) (default : Option DVal)
  | update (s : Seq K) (kw : Items K) (rm : Option Bool)
  | clear (valuesOnly : Bool)
  | popitem
  | setdefault (k : K) (v : DVal)

/-- `dict.popitem` (Python's dict, inherited by itree_data.py 1105) -/
def popitem (d : Items K) : Items K := d.dropLast

/-- `dict.setdefault` (Python's dict, inherited by itree_data.py 1105) -/
def setdefault (d : Items K) (k : K) (v : DVal) : Items K := if (look d k).isSome then d else put d k v

/-- one call on an `iTData` object: the exception if any, and the state after it (itree_data.py 1141-1401) -/
def step (Q : Keys K) (S : World × Items K) : DOp K → Option LErr × (World × Items K)
  | .setItem k v => (none, S.1, setItem Q S.2 k v)
  | .delItem k => match delItem S.2 k with
    | .ok d => (none, S.1, d)
    | .error e => (some e, S)
  | .pop k x => match pop S.2 k x with
    | (.ok _, d) => (none, S.1, d)
    | (.error e, d) => (some e, S.1, d)
  | .update s kw rm => update Q S s kw rm
  | .clear b => (none, clear S.1 S.2 b)
  | .popitem => if S.2 = [] then (some .key, S) else (none, S.1, popitem S.2)
  | .setdefault k v => (none, S.1, setdefault S.2 k v)

/-- one call on an `iTDataReadOnly` object (itree_data.py 1476-1510) -/
def stepReadOnly (Q : Keys K) (S : World × Items K) : DOp K → Option LErr × (World × Items K)
  | .setItem _ _ => (some .permission, S)
  | .delItem _ => (some .permission, S)
  | .pop _ _ => (some .permission, S)
  | .update _ _ _ => (some .permission, S)
  | .clear _ => (some .permission, S)
  | .popitem => step Q S .popitem
  | .setdefault k v => step Q S (.setdefault k v)

/-- a history of calls, exceptions caught by the caller (itree_data.py 1141-1401) -/
def runOps (f : World × Items K → DOp K → Option LErr × (World × Items K)) : World × Items K → List (DOp K) → World × Items K
  | S, [] => S
  | S, o :: os => runOps f (f S o).2 os

end
end Legacy
