import Verif.Model.Serialize
/-
Model of the converter for files of version 1.1.1, `Converter_1_1_1_to_2_0_0` (itree_serializer/itree_json_converter.py 84-191), on the decompressed bytes of the file (gzip and the file system are
not modelled).  Simplifications: the file of a link is None or a string and its path a list (anything else is refused); an item in the place of a tag, a value, a key or an element is refused, and so is anything but an item as a child and
anything but a list as children or as contents of a container; `eval` knows the container classes of `Json.evalSeq`; numpy is not installed.
-/
namespace ITree

open Json (J PV Env SErr Style)

/-- what `create_itree_from_raw` delivers: a Python value or an item (itree_json_converter.py 146-191) -/
inductive Dec (ι : Type) where
  | py (v : PV)
  | item (i : ι)

/-- `raw_o.get(key)`: None if the key is missing (itree_json_converter.py 146-191) -/
def objGetD (k : List Char) (l : List (List Char × J)) : J := (objGet k l).getD .null

/-- `{decode(key): decode(v) for key, v in raw_o}` (itree_json_converter.py 152): the loop runs over the keys, that are taken apart into two characters; other keys are ValueErrors -/
def untyped (E : Env) : List (List Char × J) → Except SErr (List (PV × PV))
  | [] => .ok []
  | ([a, b], _) :: r => (untyped E r).map fun l => (.str [a], .str [b]) :: l
  | _ :: _ => .error .value

/-- a Python value, not an item (itree_json_converter.py 146-191) -/
def asPy {ι : Type} : Except SErr (Dec ι) → Except SErr PV
  | .ok (.py v) => .ok v
  | .ok (.item _) => .error .type
  | .error e => .error e

/-- an item, not a Python value (itree_json_converter.py 146-191) -/
def asItem {ι : Type} : Except SErr (Dec ι) → Except SErr ι
  | .ok (.item i) => .ok i
  | .ok (.py _) => .error .type
  | .error e => .error e

/-- `flags=iTree._READ_ONLY_TREE|iTree._READ_ONLY_VALUE` for every type but 'iT' (itree_json_converter.py 170-175) -/
def oldFlags (ty : List Char) : Flags := if ty = "iT".toList then 0#6 else Flags.readOnlyTree ||| Flags.readOnlyValue

section
variable {σ ι : Type} (B : Builder σ ι) (N : Names) (E : Env)

/-- decode all elements of a list as `f` does, from left to right (the comprehensions in itree_json_converter.py 166-174, 181-184) -/
def decAll {α : Type} (f : σ → J → σ × Except SErr α) (s : σ) : List J → σ × Except SErr (List α)
  | [] => (s, .ok [])
  | j :: js => match f s j with
    | (s1, .error e) => (s1, .error e)
    | (s1, .ok a) => match decAll f s1 js with
      | (s2, .error e) => (s2, .error e)
      | (s2, .ok as) => (s2, .ok (a :: as))

/-- `(decode(i[0]), decode(i[1]))` (itree_json_converter.py 178-180) -/
def decPair (f : σ → J → σ × Except SErr PV) (s : σ) : J → σ × Except SErr (PV × PV)
  | .arr (a :: b :: _) => match f s a with
    | (s1, .error e) => (s1, .error e)
    | (s1, .ok k) => match f s1 b with
      | (s2, .error e) => (s2, .error e)
      | (s2, .ok v) => (s2, .ok (k, v))
  | .arr _ => (s, .error .index)
  | _ => (s, .error .type)

/-- what is done with a list in a field, `TypeError` for anything else (itree_json_converter.py 164-184) -/
def overList {α : Type} (s : σ) (j : J) (f : List J → σ × Except SErr α) : σ × Except SErr α :=
  match j with
  | .arr l => f l
  | _ => (s, .error .type)

/-- data: None stays None (itree_json_converter.py 161-163) -/
def decData (f : σ → J → σ × Except SErr PV) (s : σ) : J → σ × Except SErr PV
  | .null => (s, .ok .none)
  | j => f s j

/-- value of a container field (itree_json_converter.py 177-184): 'OD', 'D', 'd', 'DR', 'ITER:…' -/
def decContainer (f : σ → J → σ × Except SErr PV) (s : σ) (ty : List Char) (l : List (List Char × J)) : σ × Except SErr (Dec ι) :=
  if ty = "OD".toList then
    match overList s (objGetD "DC".toList l) (decAll (decPair f) s) with
    | (s1, .error e) => (s1, .error e)
    | (s1, .ok ps) => (s1, (Json.evalMap E "OrderedDict".toList ps).map .py)
  else if ty = "D".toList ∨ ty = "d".toList ∨ ty = "DR".toList then
    match overList s (objGetD "DC".toList l) (decAll (decPair f) s) with
    | (s1, .error e) => (s1, .error e)
    | (s1, .ok ps) => (s1, (Json.evalMap E "dict".toList ps).map .py)
  else if "ITER:".toList.isPrefixOf ty then
    match overList s (objGetD "DC".toList l) (decAll f s) with
    | (s1, .error e) => (s1, .error e)
    | (s1, .ok vs) => (s1, (Json.evalSeq E (ty.drop 5) vs).map .py)
  else if ty = "npa".toList then (s, .error .name)
  else (s, .ok (.py (Json.raw (.obj l))))

/-- `iTLink(link[0], decode(link[1]))` (itree_json_converter.py 169) -/
def decLink (f : σ → J → σ × Except SErr PV) (s : σ) : J → σ × Except SErr LinkSt
  | .arr (a :: b :: _) => match f s b with
    | (s1, .error e) => (s1, .error e)
    | (s1, .ok p) => (s1, linkArg N (Json.raw a) p)
  | .arr _ => (s, .error .index)
  | _ => (s, .error .type)

/-- the constructor calls with the field "LK" (itree_json_converter.py 165-176); the items with a link get no flags but LINK_ROOT, which the constructor sets -/
def newOld (f : σ → J → σ × Except SErr PV) (s : σ) (t : Tag) (v : Val) (kids : List ι) (ty : List Char) : J → σ × Except SErr (Dec ι)
  | .null => ((B.new s t v kids (oldFlags ty) none).1, .ok (.item (B.new s t v kids (oldFlags ty) none).2))
  | j => match decLink N f s j with
    | (s1, .error e) => (s1, .error e)
    | (s1, .ok l) => ((B.new s1 t v kids Flags.linkRoot (some l)).1, .ok (.item (B.new s1 t v kids Flags.linkRoot (some l)).2))

/-- `create_itree_from_raw(raw_o)` (itree_json_converter.py 146-191), recursion limit `n` -/
def decodeOld : Nat → σ → J → σ × Except SErr (Dec ι)
  | 0, s, _ => (s, .error .recursion)
  | n + 1, s, .obj l =>
    let py := fun s j => ((decodeOld n s j).1, asPy (decodeOld n s j).2)
    let it := fun s j => ((decodeOld n s j).1, asItem (decodeOld n s j).2)
    match objGetD "TP".toList l with
    | .null => (s, (untyped E l).map fun ps => .py (.map "dict".toList (Json.dictOf E.eq ps)))
    | .str ty =>
      if ty ∈ ["iT".toList, "iTRO".toList, "iTl".toList, "iTPH".toList, "iTI".toList] then
        match py s (objGetD "TG".toList l) with
        | (s1, .error e) => (s1, .error e)
        | (s1, .ok tag) =>
          if ty = "iTPH".toList then ((B.new s1 (N.pvTag tag) .noValue [] Flags.placeholder none).1, .ok (.item (B.new s1 (N.pvTag tag) .noValue [] Flags.placeholder none).2))
          else if ty = "iTI".toList then (s1, .ok (.py (.seq (.foreign "TagIdx".toList) [tag, Json.raw (objGetD "IDX".toList l)])))
          else match decData py s1 (objGetD "DT".toList l) with
            | (s2, .error e) => (s2, .error e)
            | (s2, .ok v) => match overList s2 (objGetD "iT".toList l) (decAll it s2) with
              | (s3, .error e) => (s3, .error e)
              | (s3, .ok kids) => newOld B N py s3 (N.pvTag tag) (N.pvVal v) kids ty (objGetD "LK".toList l)
      else decContainer E py s ty l
    | .arr _ => (s, .error .type)
    | .obj _ => (s, .error .type)
    | _ => (s, .error .attribute)
  | _ + 1, s, j => (s, .ok (.py (Json.raw j)))

/-- `source_str.split(sep)` (Python's `bytes.split`, itree_json_converter.py 108-144) -/
def splitSep (sep : List Char) : Nat → List Char → List (List Char)
  | 0, s => [s]
  | _ + 1, [] => [[]]
  | n + 1, c :: cs => if sep.isPrefixOf (c :: cs) then [] :: splitSep sep n ((c :: cs).drop sep.length)
    else match splitSep sep n cs with
      | [] => [[c]]
      | w :: ws => (c :: w) :: ws

/-- the separator of header and data (itree_json_converter.py 130) -/
def oldSep : List Char := "}***DT***".toList

/-- the checks of `convert` (itree_json_converter.py 130-144): the JSON document of the data section -/
def oldCheck (sha1 : List Char → List Char) (checkHash : Bool) (text : List Char) : Except SErr J :=
  match splitSep oldSep (text.length + 1) text with
  | [hd, dt] =>
    match Json.loads (hd ++ ['}']) with
    | none => .error .json
    | some (.obj o) =>
      match objGet "VERSION".toList o with
      | none => .error .key
      | some v =>
        if (match v with | .str s => decide (s = "1.1.1".toList) | _ => false) = false then .error .permission
        else if checkHash && (match objGet "HASH".toList o with | some (.str d) => !decide (sha1 dt = d) | some _ => true | none => false) then .error .permission
        else match Json.loads dt with
          | none => .error .json
          | some j => .ok j
    | some _ => .error .type
  | _ => .error .value

/-- `Converter_1_1_1_to_2_0_0(src, check_hash)` (itree_json_converter.py 84-85, 109-145) -/
def convertOld (n : Nat) (sha1 : List Char → List Char) (checkHash : Bool) (s : σ) (text : List Char) : σ × Except SErr (Dec ι) :=
  match oldCheck sha1 checkHash text with
  | .error e => (s, .error e)
  | .ok j => decodeOld B N E n s j

end

end ITree
