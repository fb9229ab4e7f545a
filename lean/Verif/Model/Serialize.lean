import Verif.Model.CopyLoop
import Verif.Model.Step
import Verif.Model.PyJson
/-
Model of `iTStdJSONSerializer2` (itree_serializer/itree_json_serialize.py): dumps, dump, loads, load; and of the generator `_iter_deep_locals_add_placeholders` (itree_private.py 828-874).
`loads` is modelled with `load_links=False` when there are link roots, and the constructor without the flag LOAD_LINKS for them.
gzip and the file system are not modelled: `dump` followed by `load` hands the text of `dumps(o, add_header=True, …)` to `loads`.
-/
namespace ITree

open Json (J PV Env SErr Style)

/-- The tags and values of the heap model are names for Python objects: this structure says which object a name stands for.  All statements hold for every such naming. (itree_json_serialize.py 173-194) -/
structure Names where
  tagPV : Tag → PV
  pvTag : PV → Tag
  valPV : Val → PV
  pvVal : PV → Val
  tag_left : ∀ t, pvTag (tagPV t) = t
  val_left : ∀ v, pvVal (valPV v) = v
  /-- the constants NoTag and NoValue -/
  noTag : tagPV .noTag = .const 1
  noValue : valPV .noValue = .const 0

/-! ### dump -/

/-- `tag_dict[tag] + 1` for the running family index; a missing tag is a KeyError (itree_private.py 763-777) -/
def bumpTag (t : Tag) : List (Tag × Int) → Option (Int × List (Tag × Int))
  | [] => none
  | (t', n) :: r => if t' = t then some (n + 1, (t', n + 1) :: r) else (bumpTag t r).map fun p => (p.1, (t', n) :: p.2)

/-- what the generator yields: an item of the tree, or a new placeholder object `iTree(tag, k, flags=placeholder)` (itree_private.py 773), which has no children -/
inductive DItem where
  | item (x : Id)
  | ph (t : Tag) (k : Int)
  deriving DecidableEq

/-- the tag of a yielded object (itree_private.py 763-874) -/
def DItem.tag (h : Heap) : DItem → Tag
  | .item x => h.tag x
  | .ph t _ => t

/-- an entry of the list `iterators`: the rest of an iterator or `NONE_TUPLE` (itree_private.py 829-874) -/
inductive DFr where
  | it (l : List DItem)
  | none

/-- the local variables of the generator: `iterators` (last element first), `depth`, `tag_index_dict` (last element first) (itree_private.py 829-874) -/
structure DumpSt where
  its : List DFr
  depth : Nat
  tags : List (List (Tag × Int))

/-- `{tag: -1 for tag in item._families.keys()}` (itree_private.py 763-874) -/
def tagDict (h : Heap) (x : Id) : List (Tag × Int) := ((h.node x).fams.getD []).map fun p => (p.1, -1)

/-- the loop of `_iter_locals_add_placeholders` (itree_private.py 769-777) over the children left; `td` is `tag_dict`, `add` the variable `add_placeholder`.  Simplification: the cached family numbers written on the
way (they are the right ones) are not. -/
def phLoop (h : Heap) : List (Tag × Int) → Bool → List Id → Except Err (List DItem)
  | _, _, [] => .ok []
  | td, add, x :: xs => match bumpTag (h.tag x) td with
    | none => .error .key
    | some (k, td') =>
      if (h.flags x).has Flags.linked && add then (phLoop h td' false xs).map fun l => .ph (h.tag x) k :: l
      else (phLoop h td' true xs).map fun l => .item x :: l

/-- what is iterated below the item `x` (itree_private.py 856-859): `_iter_locals_add_placeholders(x)` for link roots, all children otherwise -/
def dumpKids (h : Heap) (x : Id) : Except Err (List DItem) :=
  if (h.flags x).has Flags.linkRoot then phLoop h ((h.kids x).map fun c => (h.tag c, -1)) false (h.kids x) else .ok ((h.kids x).map .item)

/-- One round of the loops itree_private.py 849-874.  Yields (depth, family index, item).  Simplification: the objects below a link root are made when the iteration over them starts. -/
def dumpStep (h : Heap) (s : DumpSt) : GStep DumpSt (Nat × Int × DItem) :=
  match s.its with
  | [] => .done
  | .it [] :: st => .more [] { s with its := st }
  | .none :: st => match s.tags with
    | [] => .fail .index
    | _ :: tags => .more [] { its := st, depth := s.depth - 1, tags := tags }
  | .it (d :: ds) :: st => match s.tags with
    | [] => .fail .index
    | td :: tags => match bumpTag (d.tag h) td with
      | none => .fail .key
      | some (fidx, td') => match d with
        | .ph _ _ => .more [(s.depth, fidx, d)] { s with its := .it ds :: st, tags := td' :: tags }
        | .item x =>
          if h.kids x = [] then .more [(s.depth, fidx, d)] { s with its := .it ds :: st, tags := td' :: tags }
          else match dumpKids h x with
            | .error e => .fail e
            | .ok l => .more [(s.depth, fidx, d)] { its := .it l :: .none :: .it ds :: st, depth := s.depth + 1, tags := tagDict h x :: td' :: tags }

/-- `_iter_deep_locals_add_placeholders(itree_item)`, at most `n` rounds.  The children of the item itself are all iterated, also of a link root (itree_private.py 845). -/
def dumpRows (n : Nat) (h : Heap) (x : Id) : Option (List (Nat × Int × DItem) × Except Err Unit) :=
  if h.kids x = [] then some ([], .ok ()) else
  (gen (dumpStep h) n ⟨[.it ((h.kids x).map .item)], 1, [tagDict h x]⟩).map fun r => (r.1, r.2.map fun _ => ())

/-- a file path as Python object: a string or None (itree_json_serialize.py 248-264, itree_helpers.py 152-156) -/
def filePV : Option String → PV
  | none => .none
  | some s => .str s.toList

/-- the object `iTLink(file_path, target_path)`, as the serializer sees it: an object with `get_init_args()` (itree_helpers.py 125-156). Simplifications: target paths are lists of tags; the file path is one that
`os.path.relpath` leaves as it is (every stored path is such a path). -/
def linkPV (N : Names) (l : LinkSt) : PV :=
  .init "iTLink".toList "itertree.itree_helpers".toList true [filePV l.file, .seq .list (l.path.map N.tagPV)]

/-- `_get_args_skip_subtree(item)` (itree_private.py 503-513) as Python objects; a link root always has flags; without link object the access to its paths is an AttributeError -/
def itemArgs (N : Names) (h : Heap) (x : Id) : Except SErr (List PV) :=
  if (h.flags x).has Flags.linkRoot then
    match (h.node x).link with
    | none => .error .attribute
    | some l => .ok [N.tagPV (h.tag x), N.valPV (h.node x).value, .none, linkPV N l, .int (h.flags x).toNat]
  else .ok ([N.tagPV (h.tag x), N.valPV (h.node x).value] ++ (if h.flags x = 0#6 then [] else [.none, .none, .int (h.flags x).toNat]))

/-- the arguments of a yielded object; a placeholder has its number as value (itree_json_serialize.py 248-264) -/
def ditemArgs (N : Names) (h : Heap) : DItem → Except SErr (List PV)
  | .item x => itemArgs N h x
  | .ph t k => .ok [N.tagPV t, N.valPV (.int k), .none, .none, .int Flags.placeholder.toNat]

/-- `convert_single_itree_to_json_obj` before `JSON.dumps`: `[depth, fidx, converted arguments…]` (itree_json_serialize.py 248-264) -/
def rowJson (N : Names) (E : Env) (h : Heap) (r : Nat × Int × DItem) : Except SErr J :=
  match ditemArgs N h r.2.2 with
  | .error e => .error e
  | .ok args => (Json.toJsonL E args).map fun js => .arr (.int r.1 :: .int r.2.1 :: js)

/-- the line of one item: indentation and JSON text (itree_json_serialize.py 266-311) -/
def rowText (N : Names) (E : Env) (st : Style) (h : Heap) (r : Nat × Int × DItem) : Except SErr (List Char) :=
  (rowJson N E h r).map fun j => List.replicate (2 * r.1) ' ' ++ Json.dumps st j

/-- the lines of all items, itree_json_serialize.py 266-311 -/
def rowTexts (N : Names) (E : Env) (st : Style) (h : Heap) : List (Nat × Int × DItem) → Except SErr (List (List Char))
  | [] => .ok []
  | r :: rs => match rowText N E st h r with
    | .ok s => match rowTexts N E st h rs with
      | .ok ss => .ok (s :: ss)
      | .error e => .error e
    | .error e => .error e

/-- `b',\n'.join(lines)` (itree_json_serialize.py 266-311) -/
def joinLines : List (List Char) → List Char
  | [] => []
  | [l] => l
  | l :: ls => l ++ ',' :: '\n' :: joinLines ls

/-- the data section of `dumps` (itree_json_serialize.py 286-291) -/
def dataText (n : Nat) (N : Names) (E : Env) (st : Style) (h : Heap) (x : Id) : Option (Except SErr (List Char)) :=
  (dumpRows n h x).map fun r =>
    match r.2 with
    | .error _ => .error .type
    | .ok () => match rowText N E st h (0, 0, .item x), rowTexts N E st h r.1 with
      | .ok root, .ok lines => .ok ('[' :: '\n' :: (root ++ ',' :: '\n' :: (joinLines lines ++ ['\n', ']'])))
      | .error e, _ => .error e
      | _, .error e => .error e

/-- the header dictionary (itree_json_serialize.py 294-303) -/
def headerJson (typeName : List Char) (hash : Option (List Char)) : J :=
  .obj ([("TYPE".toList, .str typeName), ("VERSION".toList, .str "2.0.0".toList)] ++ (match hash with | some s => [("HASH".toList, .str s)] | none => []))

/-- the text with header (itree_json_serialize.py 304-308) -/
def withHeader (st : Style) (typeName : List Char) (hash : Option (List Char)) (data : List Char) : List Char :=
  '[' :: '\n' :: (Json.dumps st (headerJson typeName hash) ++ ',' :: '\n' :: (data ++ [']']))

/-- `dumps(o, add_header, calc_hash)`: the returned text; `sha` is `hashlib.sha256(…).hexdigest()` (itree_json_serialize.py 266-311) -/
def dumpsText (sha : List Char → List Char) (n : Nat) (N : Names) (E : Env) (st : Style) (typeName : List Char) (addHeader calcHash : Bool) (h : Heap) (x : Id) : Option (Except SErr (List Char)) :=
  (dataText n N E st h x).map fun r => r.map fun d => if addHeader then withHeader st typeName (if calcHash then some (sha d) else none) d else d

/-! ### load -/

/-- `itree_class(tag, value, subtree, link, flags)`: state after the call and the new object (itree_json_serialize.py 347-418) -/
structure Builder (σ ι : Type) where
  new : σ → Tag → Val → List ι → Flags → Option LinkSt → σ × ι

/-- the class iTree (itree_main.py 110-311) -/
def heapBuilder : Builder Heap Id where
  new h t v sub f lk := match (match lk with
      | none => newItem h t v (sub.map Arg.item) f
      | some l => newLink h t v (sub.map Arg.item) f l.file l.path) with
    | (h', .ok i) => (h', i)
    | (h', .error _) => (h', h'.next)

/-- entries of `level_datas`: the raw data of an item or an already built item (itree_json_serialize.py 347-401) -/
inductive Entry (ι : Type) where
  | raw (row : List J)
  | item (i : ι)

/-- the arguments `flags` of the constructor (itree_main.py 260-298) -/
def flagsArg : List PV → Except SErr Flags
  | [] => .ok 0#6
  | .int z :: _ => if 0 ≤ z ∧ z < 64 then .ok (BitVec.ofNat 6 z.toNat) else .error .type
  | _ => .error .type

/-- `iTLink(file_path, target_path)` of the converted arguments. Simplification: other than None and strings, and lists, are refused. (itree_json_serialize.py 201-232) -/
def linkArg (N : Names) : PV → PV → Except SErr LinkSt
  | .none, .seq .list l => .ok { path := l.map N.pvTag }
  | .str s, .seq .list l => .ok { file := some (String.ofList s), path := l.map N.pvTag }
  | _, _ => .error .type

/-- the arguments after subtree: link and flags (itree_json_serialize.py 347-401) -/
def restArgs (N : Names) : List PV → Except SErr (Flags × Option LinkSt)
  | [] => .ok (0#6, none)
  | .none :: r => (flagsArg r).map fun f => (f, none)
  | .init c _ _ [a, b] :: r =>
    if c = "iTLink".toList then
      match linkArg N a b, flagsArg r with
      | .ok l, .ok f => .ok (f, some l)
      | .error e, _ => .error e
      | _, .error e => .error e
    else .error .type
  | _ => .error .type

/-- positional arguments of `itree_class(*args)` (tag, value, subtree, link, flags) as they occur in dumps: subtree is None (itree_json_serialize.py 347-401) -/
def ctorArgs (N : Names) : List PV → Except SErr (Tag × Val × Flags × Option LinkSt)
  | [] => .ok (.noTag, .noValue, 0#6, none)
  | [t] => .ok (N.pvTag t, .noValue, 0#6, none)
  | [t, v] => .ok (N.pvTag t, N.pvVal v, 0#6, none)
  | t :: v :: .none :: r => (restArgs N r).map fun f => (N.pvTag t, N.pvVal v, f)
  | _ => .error .type

section
variable {σ ι : Type} (B : Builder σ ι) (N : Names) (E : Env)

/-- `itree_class(*[convert_from_json_obj(arg) for arg in args[2:]])` (itree_json_serialize.py 347-418) -/
def leafArgs (row : List J) : Except SErr (Tag × Val × Flags × Option LinkSt) :=
  match Json.fromList E (row.drop 2) with
  | .ok l => ctorArgs N l
  | .error e => .error e

/-- the arguments of an item with children: `main_args[2]`, `main_args[3]`, `main_args[5:]` (itree_json_serialize.py 347-401) -/
def mainArgs (row : List J) : Except SErr (Tag × Val × Flags × Option LinkSt) :=
  match row with
  | _ :: _ :: t :: v :: r =>
    match Json.fromJson E t, Json.fromJson E v, Json.fromList E (r.drop 1) with
    | .ok t, .ok v, .ok l => (restArgs N l).map fun f => (N.pvTag t, N.pvVal v, f)
    | .error e, _, _ => .error e
    | _, .error e, _ => .error e
    | _, _, .error e => .error e
  | _ => .error .index

/-- the generator of the subtree: raw entries become leaves. Simplification: the leaves are created before their parent object (only the identities differ). (itree_json_serialize.py 347-401) -/
def makeKids (s : σ) : List (Entry ι) → σ × Except SErr (List ι)
  | [] => (s, .ok [])
  | .item i :: es => match makeKids s es with
    | (s', .ok is) => (s', .ok (i :: is))
    | (s', .error e) => (s', .error e)
  | .raw row :: es => match leafArgs N E row with
    | .error e => (s, .error e)
    | .ok (t, v, f, lk) =>
      let r := B.new s t v [] f lk
      match makeKids r.1 es with
      | (s', .ok is) => (s', .ok (r.2 :: is))
      | (s', .error e) => (s', .error e)

/-- the state of `create_itree_from_raw`: the builder state, `level_datas` (deepest level first, every level with the last entry first) and `it` (itree_json_serialize.py 347-401) -/
structure LoadSt (σ ι : Type) where
  s : σ
  levels : List (List (Entry ι))
  it : Option ι

/-- the body of the loops building an item from the deepest level (itree_json_serialize.py 353-368 and 377-389) -/
def popLevel (x : LoadSt σ ι) : σ × Except SErr (LoadSt σ ι) :=
  match x.levels with
  | top :: (.raw row :: more) :: rest =>
    match mainArgs N E row with
    | .error e => (x.s, .error e)
    | .ok (t, v, f, lk) =>
      match makeKids B N E x.s top.reverse with
      | (s, .error e) => (s, .error e)
      | (s, .ok kids) =>
        let r := B.new s t v kids f lk
        (r.1, .ok { s := r.1, levels := (.item r.2 :: more) :: rest, it := some r.2 })
  | _ :: (.item _ :: _) :: _ => (x.s, .error .syntaxErr)
  | _ => (x.s, .error .index)

/-- several levels, itree_json_serialize.py 347-401 -/
def popN : Nat → LoadSt σ ι → σ × Except SErr (LoadSt σ ι)
  | 0, x => (x.s, .ok x)
  | n + 1, x => match popLevel B N E x with
    | (_, .ok x') => popN n x'
    | (s, .error e) => (s, .error e)

/-- one round of the first loop (itree_json_serialize.py 347-401); the depth is compared as an integer -/
def loadRow (x : LoadSt σ ι) (row : J) : σ × Except SErr (LoadSt σ ι) :=
  match row with
  | .arr (.int d :: r) =>
    match x.levels with
    | [] => (x.s, .error .index)
    | top :: rest =>
      if d = rest.length then (x.s, .ok { x with levels := (.raw (.int d :: r) :: top) :: rest })
      else if d = rest.length + 1 then (x.s, .ok { x with levels := [.raw (.int d :: r)] :: top :: rest })
      else if d < rest.length then
        match popN B N E ((rest.length : Int) - d).toNat x with
        | (_, .ok x') => match x'.levels with
          | top' :: rest' => (x'.s, .ok { x' with levels := (.raw (.int d :: r) :: top') :: rest' })
          | [] => (x'.s, .error .index)
        | (s, .error e) => (s, .error e)
      else (x.s, .error .syntaxErr)
  | _ => (x.s, .error .type)

/-- all rows, itree_json_serialize.py 347-401 -/
def loadRows (x : LoadSt σ ι) : List J → σ × Except SErr (LoadSt σ ι)
  | [] => (x.s, .ok x)
  | r :: rs => match loadRow B N E x r with
    | (_, .ok x') => loadRows x' rs
    | (s, .error e) => (s, .error e)

/-- `create_itree_from_raw(raw_o)` (itree_json_serialize.py 347-401); without any built item the variable `it` is unbound -/
def fromRaw (s : σ) (rows : List J) : σ × Except SErr ι :=
  match loadRows B N E { s := s, levels := [[]], it := none } rows with
  | (s', .error e) => (s', .error e)
  | (_, .ok x) => match popN B N E (x.levels.length - 1) x with
    | (s', .error e) => (s', .error e)
    | (_, .ok y) => match y.it with
      | some i => (y.s, .ok i)
      | none => (y.s, .error .unbound)

end

/-- value of a key of a parsed JSON object: the last one counts (the JSON library; used in itree_json_serialize.py 420-454) -/
def objGet (k : List Char) (l : List (List Char × J)) : Option J := (l.filter fun p => p.1 == k).getLast?.map Prod.snd

/-- `version[:version.rindex('.')]`; no point: ValueError (itree_json_serialize.py 420-454) -/
def majorVersion (v : List Char) : Except SErr (List Char) :=
  if '.' ∈ v then .ok ((v.reverse.dropWhile (· != '.')).drop 1).reverse else .error .value

/-- `source_str.find(b'},\n')`: text after the first occurrence; without an occurrence `find` is -1 (itree_json_serialize.py 420-454) -/
def afterHeader : List Char → Option (List Char)
  | [] => none
  | c :: r => if ['}', ',', '\n'].isPrefixOf (c :: r) then some (r.drop 2) else afterHeader r

/-- the hashed part of a text: `source_str[source_str.find(b'},\n') + 3:-1]` (itree_json_serialize.py 420-454) -/
def hashedPart (s : List Char) : List Char := (match afterHeader s with | some r => r | none => s.drop 2).dropLast

/-- the checks of `loads` before the tree is built (itree_json_serialize.py 432-449): the rows of the tree data -/
def loadCheck (sha : List Char → List Char) (checkHash : Bool) (text : List Char) : Except SErr (List J) :=
  match Json.loads text with
  | none => .error .json
  | some (.arr [.obj hd, data]) =>
    match objGet "VERSION".toList hd with
    | some (.str v) =>
      match majorVersion v with
      | .error e => .error e
      | .ok m =>
        if m ≠ "2.0".toList then .error .syntaxErr
        else match (if checkHash then objGet "HASH".toList hd else none) with
          | some (.str d) => if sha (hashedPart text) = d then (match data with | .arr rows => .ok rows | _ => .error .type) else .error .permission
          | some _ => .error .permission
          | none => match data with | .arr rows => .ok rows | _ => .error .type
    | some _ => .error .type
    | none => .error .key
  | some (.arr rows) => .ok rows
  | some _ => .error .syntaxErr

/-- `loads(source_str, check_hash, load_links)` (itree_json_serialize.py 420-454). For a tree without link roots `load_links` does nothing; for one with link roots this is `load_links=False`. -/
def loadsText {σ ι : Type} (B : Builder σ ι) (sha : List Char → List Char) (N : Names) (E : Env) (checkHash : Bool) (s : σ) (text : List Char) : σ × Except SErr ι :=
  match loadCheck sha checkHash text with
  | .error e => (s, .error e)
  | .ok rows => fromRaw B N E s rows

end ITree
