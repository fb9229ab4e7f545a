import Verif.Model.Json
/-
Model of the object converter of the serializer: `convert_to_json_item` and `convert_from_json_obj` (itree_serializer/itree_json_serialize.py 97-235).
Not modelled: numpy arrays; iterables other than list, tuple, deque, set, frozenset, dict and OrderedDict that happen to be found by `eval` (they count as `foreign`).
-/
namespace Json

/-- exception kinds of the serializer (itree_json_serialize.py 173-246) -/
inductive SErr where
  | type | key | index | name | value | syntaxErr | permission | unbound | json | recursion | attribute
  deriving DecidableEq, Repr

/-- the sequence types, itree_json_serialize.py 125-149 -/
inductive SeqKind where
  | list | tuple | deque | set | frozenset
  | foreign (name : List Char)
  deriving DecidableEq

/-- Python objects as the serializer sees them (itree_json_serialize.py 125-149) -/
inductive PV where
  | none | bool (b : Bool) | int (z : Int) | flt (tok : List Char) | inf | ninf | nan
  | str (s : List Char) | bytes (l : List Nat)
  /-- the classes NoValue (0), NoTag (1), Any (2), NoKey (3) of itree_helpers.py -/
  | const (k : Nat)
  /-- any other class -/
  | cls (n : Nat)
  | seq (k : SeqKind) (l : List PV)
  /-- dict, or OrderedDict, or another mapping class -/
  | map (name : List Char) (l : List (PV × PV))
  /-- an object with `get_init_args()`: class name, module name, are the arguments a tuple (or a list), the arguments -/
  | init (cls mod : List Char) (tuple : Bool) (args : List PV)
  /-- any other object -/
  | obj (n : Nat)
  deriving Inhabited

/-- what the model takes from outside: the JSON library in use, Python equality (used by set and dict), and the construction of an object from class name, module name and arguments
(`eval` of the name, import of the module, call of the class; itree_json_serialize.py 201-232) -/
structure Env where
  orjson : Bool
  eq : PV → PV → Bool
  build : List Char → List Char → List PV → Except SErr PV

/-- `o.__class__.__name__`, itree_json_serialize.py 125-149 -/
def SeqKind.name : SeqKind → List Char
  | .list => "list".toList | .tuple => "tuple".toList | .deque => "deque".toList | .set => "set".toList | .frozenset => "frozenset".toList
  | .foreign n => n

/-- a type number, itree_json_serialize.py 100-108 -/
def typeNo (n : Nat) : J := .int n

/-- `JSON.dumps` of an int: orjson is limited to 64 bit (itree_json_serialize.py 266-311) -/
def intOk (orjson : Bool) (z : Int) : Bool := !orjson || (decide (-9223372036854775808 ≤ z) && decide (z ≤ 18446744073709551615))

mutual
/-- `convert_to_json_item(o)` (itree_json_serialize.py 125-149, 173-194) together with the part of `JSON.dumps` that refuses objects -/
def toJson (E : Env) : PV → Except SErr J
  | .none => .ok (.arr [.null, typeNo 0])
  | .bool b => .ok (.arr [.bool b, typeNo 0])
  | .int z => if intOk E.orjson z then .ok (.arr [.int z, typeNo 0]) else .error .type
  | .flt t => .ok (.arr [.flt t, typeNo 0])
  | .inf => .ok (.arr [if E.orjson then .null else .inf, typeNo 0])
  | .ninf => .ok (.arr [if E.orjson then .null else .ninf, typeNo 0])
  | .nan => .ok (.arr [if E.orjson then .null else .nan, typeNo 0])
  | .str s => .ok (.arr [.str s, typeNo 0])
  | .bytes l => .ok (.arr [.arr (l.map fun (n : Nat) => J.int n), typeNo 1])
  | .const k => if k < 4 then .ok (.arr [typeNo k, typeNo 8]) else .error .key
  | .cls _ => .error .key
  | .seq k l => match toJsonL E l with
    | .ok js => .ok (.arr [.arr js, typeNo 4, .str k.name])
    | .error e => .error e
  | .map n l => match toJsonM E l with
    | .ok js => .ok (.arr [.arr js, typeNo 3, .str n])
    | .error e => .error e
  | .init c m t args => match toJsonL E args with
    | .ok js => .ok (.arr [.arr [.arr js, typeNo 4, .str (if t then SeqKind.tuple else SeqKind.list).name], typeNo 6, .str c, .str m])
    | .error e => .error e
  | .obj _ => .error .type
/-- the elements of a sequence, itree_json_serialize.py 125-142 -/
def toJsonL (E : Env) : List PV → Except SErr (List J)
  | [] => .ok []
  | x :: xs => match toJson E x with
    | .ok j => match toJsonL E xs with
      | .ok js => .ok (j :: js)
      | .error e => .error e
    | .error e => .error e
/-- the pairs of a dict, itree_json_serialize.py 143-148 -/
def toJsonM (E : Env) : List (PV × PV) → Except SErr (List J)
  | [] => .ok []
  | (k, v) :: xs => match toJson E k, toJson E v with
    | .ok a, .ok b => match toJsonM E xs with
      | .ok js => .ok (.arr [a, b] :: js)
      | .error e => .error e
    | .error e, _ => .error e
    | _, .error e => .error e
end

mutual
/-- the Python object `JSON.loads` delivers (itree_json_serialize.py 151-160) -/
def raw : J → PV
  | .null => .none | .bool b => .bool b | .int z => .int z | .flt t => .flt t | .inf => .inf | .ninf => .ninf | .nan => .nan | .str s => .str s
  | .arr l => .seq .list (rawL l)
  | .obj l => .map "dict".toList (rawM l)
/-- the elements of a list, itree_json_serialize.py 151-160 -/
def rawL : List J → List PV
  | [] => []
  | x :: xs => raw x :: rawL xs
/-- the members of an object, itree_json_serialize.py 151-160 -/
def rawM : List (List Char × J) → List (PV × PV)
  | [] => []
  | (k, v) :: ms => (.str k, raw v) :: rawM ms
end

mutual
/-- can the object be a key or an element of a set (itree_json_serialize.py 154-156) -/
def hashable : PV → Bool
  | .seq .tuple l => hashableL l
  | .seq .frozenset _ => true
  | .seq _ _ => false
  | .map _ _ => false
  | _ => true
/-- all elements, itree_json_serialize.py 154-156 -/
def hashableL : List PV → Bool
  | [] => true
  | x :: xs => hashable x && hashableL xs
end

/-- `set(l)`: the first of equal elements stays. The iteration order of sets is not modelled. (Python's `set`, itree_json_serialize.py 156) -/
def dedup (eq : PV → PV → Bool) : List PV → List PV → List PV
  | acc, [] => acc.reverse
  | acc, x :: xs => if acc.any (fun y => eq y x) then dedup eq acc xs else dedup eq (x :: acc) xs

/-- insertion into a dict: the value of an equal key is replaced, a new key comes last (Python's dict, itree_json_serialize.py 154-155) -/
def dictPut (eq : PV → PV → Bool) (k v : PV) : List (PV × PV) → List (PV × PV)
  | [] => [(k, v)]
  | (k', v') :: r => if eq k' k then (k', v) :: r else (k', v') :: dictPut eq k v r

/-- `dict(pairs)` (Python's dict, itree_json_serialize.py 154-155) -/
def dictOf (eq : PV → PV → Bool) (l : List (PV × PV)) : List (PV × PV) := l.foldl (fun d p => dictPut eq p.1 p.2 d) []

/-- `eval(name)(list)` (itree_json_serialize.py 156) -/
def evalSeq (E : Env) (n : List Char) (l : List PV) : Except SErr PV :=
  if n = SeqKind.list.name then .ok (.seq .list l)
  else if n = SeqKind.tuple.name then .ok (.seq .tuple l)
  else if n = SeqKind.deque.name then .ok (.seq .deque l)
  else if n = SeqKind.set.name then if hashableL l then .ok (.seq .set (dedup E.eq [] l)) else .error .type
  else if n = SeqKind.frozenset.name then if hashableL l then .ok (.seq .frozenset (dedup E.eq [] l)) else .error .type
  else .error .name

/-- `eval(name)(pairs)` (itree_json_serialize.py 154-155) -/
def evalMap (E : Env) (n : List Char) (l : List (PV × PV)) : Except SErr PV :=
  if n = "dict".toList ∨ n = "OrderedDict".toList then
    if l.all (fun p => hashable p.1) then .ok (.map n (dictOf E.eq l)) else .error .type
  else .error .name

/-- the numbers of a list of bytes: `i.to_bytes(1, 'little')` is an OverflowError (here: value) outside 0..255 (itree_json_serialize.py 153) -/
def bytesOf : List J → Except SErr (List Nat)
  | [] => .ok []
  | .int z :: r => if 0 ≤ z ∧ z < 256 then (bytesOf r).map fun l => z.toNat :: l else .error .value
  | _ :: _ => .error .type

/-- `json_obj[1]` used as key of CONVERT_FROM_JSON_MAP (True and False are 1 and 0) (itree_json_serialize.py 234-246) -/
def typeKey : J → Option Int
  | .int z => some z
  | .bool b => some (if b then 1 else 0)
  | _ => none

/-- the choice of the conversion by `json_obj[1]` (CONVERT_FROM_JSON_MAP, itree_json_serialize.py 151-160); `asPairs`, `asList` and `asObj` are the converted forms of the data `x` -/
def dispatch (E : Env) (x t : J) (rest : List J) (asPairs : Except SErr (List (PV × PV))) (asList : Except SErr (List PV)) (asObj : Except SErr PV) : Except SErr PV :=
  if typeKey t = some 0 then .ok (raw x)
  else if typeKey t = some 1 then match x with
    | .arr l => (bytesOf l).map fun b => .bytes b
    | _ => .error .type
  else if typeKey t = some 3 then match rest with
    | [] => .error .index
    | .str n :: _ => match asPairs with
      | .ok ps => evalMap E n ps
      | .error e => .error e
    | _ => .error .type
  else if typeKey t = some 4 then match rest with
    | [] => .error .index
    | .str n :: _ => match asList with
      | .ok vs => evalSeq E n vs
      | .error e => .error e
    | _ => .error .type
  else if typeKey t = some 6 then match rest with
    | [] => .error .index
    | .str c :: rest' => match asObj with
      | .ok (.seq _ args) => E.build c (match rest' with | .str m :: _ => m | _ => []) args
      | .ok _ => .error .type
      | .error e => .error e
    | _ => .error .type
  else if typeKey t = some 8 then match x with
    | .int k => if 0 ≤ k ∧ k < 4 then .ok (.const k.toNat) else .error .key
    | _ => .error .key
  else .error .key

mutual
/-- `convert_from_json_obj(json_obj)` (itree_json_serialize.py 221-235): an object without second element is taken as it is -/
def fromJson (E : Env) : J → Except SErr PV
  | .arr (x :: t :: rest) => dispatch E x t rest (fromPairsOf E x) (fromListOf E x) (fromJson E x)
  | .str s => if s.length < 2 then .ok (.str s) else .error .key
  | j => .ok (raw j)
/-- `[self.convert_from_json_obj(v) for v in o[0]]`, itree_json_serialize.py 156 -/
def fromListOf (E : Env) : J → Except SErr (List PV)
  | .arr l => fromList E l
  | _ => .error .type
/-- the pairs of a dict, itree_json_serialize.py 154-155 -/
def fromPairsOf (E : Env) : J → Except SErr (List (PV × PV))
  | .arr l => fromPairs E l
  | _ => .error .type
/-- the elements one after the other, itree_json_serialize.py 156 -/
def fromList (E : Env) : List J → Except SErr (List PV)
  | [] => .ok []
  | x :: xs => match fromJson E x with
    | .ok v => match fromList E xs with
      | .ok vs => .ok (v :: vs)
      | .error e => .error e
    | .error e => .error e
/-- the pairs one after the other, itree_json_serialize.py 154-155 -/
def fromPairs (E : Env) : List J → Except SErr (List (PV × PV))
  | [] => .ok []
  | .arr [a, b] :: xs => match fromJson E a, fromJson E b with
    | .ok k, .ok v => match fromPairs E xs with
      | .ok ps => .ok ((k, v) :: ps)
      | .error e => .error e
    | .error e, _ => .error e
    | _, .error e => .error e
  | _ :: _ => .error .value
end

end Json
