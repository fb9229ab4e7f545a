import Verif.Model.Serialize
/-
Model of `dumps(filter_method=…)` and of the generator behind it, `_iter_deep_locals_add_placeholders_filtered` (itree_private.py 780-826).
A filter is a function of the item or placeholder without side effects.
-/
namespace ITree

open Json (J PV Env SErr Style)

/-- One round of the loops itree_private.py 804-826.  Yields (depth, family index, item): the iterators are filtered, the test `if item:` asks for all children, the family index counts in
`tag_index_dict` – that is, only the items that pass the filter. -/
def dumpStepF (f : DItem → Bool) (h : Heap) (s : DumpSt) : GStep DumpSt (Nat × Int × DItem) :=
  match s.its with
  | [] => .done
  | .it [] :: st => .more [] { s with its := st }
  | .none :: st => match s.tags with
    | [] => .fail .index
    | _ :: tags => .more [] { its := st, depth := s.depth - 1, tags := tags }
  | .it (d :: ds) :: st => match s.tags with
    | [] => .fail .index
    | td :: tags => match bumpTag (d.tag h) td with
      | none => .fail .key
      | some (fidx, td') => match d with
        | .ph _ _ => .more [(s.depth, fidx, d)] { s with its := .it ds :: st, tags := td' :: tags }
        | .item x =>
          if h.kids x = [] then .more [(s.depth, fidx, d)] { s with its := .it ds :: st, tags := td' :: tags }
          else match dumpKids h x with
            | .error e => .fail e
            | .ok l => .more [(s.depth, fidx, d)] { its := .it (l.filter f) :: .none :: .it ds :: st, depth := s.depth + 1, tags := tagDict h x :: td' :: tags }

/-- `_iter_deep_locals_add_placeholders_filtered(itree_item, filter_method)`, at most `n` rounds (itree_private.py 797-803) -/
def dumpRowsF (f : DItem → Bool) (n : Nat) (h : Heap) (x : Id) : Option (List (Nat × Int × DItem) × Except Err Unit) :=
  if h.kids x = [] then some ([], .ok ()) else
  (gen (dumpStepF f h) n ⟨[.it (((h.kids x).map .item).filter f)], 1, [tagDict h x]⟩).map fun r => (r.1, r.2.map fun _ => ())

/-- the data section of `dumps` with a filter (itree_json_serialize.py 286-291): the root itself is not filtered -/
def dataTextF (f : DItem → Bool) (n : Nat) (N : Names) (E : Env) (st : Style) (h : Heap) (x : Id) : Option (Except SErr (List Char)) :=
  (dumpRowsF f n h x).map fun r =>
    match r.2 with
    | .error _ => .error .type
    | .ok () => match rowText N E st h (0, 0, .item x), rowTexts N E st h r.1 with
      | .ok root, .ok lines => .ok ('[' :: '\n' :: (root ++ ',' :: '\n' :: (joinLines lines ++ ['\n', ']'])))
      | .error e, _ => .error e
      | _, .error e => .error e

/-- `dumps(o, add_header, calc_hash, filter_method=f)`: the returned text (itree_json_serialize.py 266-311) -/
def dumpsTextF (f : DItem → Bool) (sha : List Char → List Char) (n : Nat) (N : Names) (E : Env) (st : Style) (typeName : List Char) (addHeader calcHash : Bool) (h : Heap) (x : Id) : Option (Except SErr (List Char)) :=
  (dataTextF f n N E st h x).map fun r => r.map fun d => if addHeader then withHeader st typeName (if calcHash then some (sha d) else none) d else d

end ITree
