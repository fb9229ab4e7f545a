import Verif.Model.MathStr
/-
Operators, `iter_in`/`filter`, equality, construction arguments and string forms of rosters and combinations (itree_mathsets.py 439-446, 1468-1505, 1546-1640, 1707-1812, 1826-1940, 2083-2146).
-/
namespace MSets

/-! ### filter -/

/-- the elements a loop `for v in value: if answer: yield v` delivers before it ends or raises (itree_mathsets.py 1468-1494, 1754-1778) -/
def keepLoop : List El → List (Except MErr Bool) → List El × Option MErr
  | v :: vs, .ok b :: rs => let r := keepLoop vs rs; (if b then v :: r.1 else r.1, r.2)
  | _ :: _, .error e :: _ => ([], some e)
  | _, _ => ([], none)

/-- `s.filter(values, vars_dict)` (itree_mathsets.py 1481-1494, 1770-1778, 2119-2129): the elements delivered, the exception; combinations build a list first, which an exception discards -/
def MSet.filter (s : MSet) (l : List El) (d : Option Dict) : List El × Option MErr :=
  let r := keepLoop l (s.iterIn l d)
  match s with
  | .combine _ _ _ => (if r.2.isSome then [] else r.1, r.2)
  | _ => r

/-! ### construction of combinations, operators -/

/-- an unnamed argument of `mSetCombine` (itree_mathsets.py 1826-1857) -/
inductive CArg where
  | set (s : MSet) | flag (b : Bool) | none

/-- an argument as member: `value in True`, `value in None` raise TypeError (itree_mathsets.py 1826-1857) -/
def CArg.member : CArg → MSet
  | .set s => s
  | _ => .other (fun _ => .error .type) 0

/-- `mSetCombine(*definition, is_union=.., complement=..)` (itree_mathsets.py 1826-1857) without a single definition string: the second flag from the end is `is_union`, and the last one
then counts for the complement -/
def mkCombine (definition : List CArg) (isUnion compl : Bool) : Except MErr MSet :=
  match definition.reverse with
  | [] => .error .type
  | .flag b :: r => match r with
    | [] => .error .type
    | .flag b2 :: r2 => match r2 with
      | [] => .error .type
      | _ => .ok (.combine (r2.reverse.map CArg.member) b2 (compl != b))
    | _ => .ok (.combine (r.reverse.map CArg.member) b compl)
  | r => .ok (.combine (r.reverse.map CArg.member) isUnion compl)

/-- `a + b` (itree_mathsets.py 443-445) -/
def MSet.add (a b : MSet) : Except MErr MSet := mkCombine [.set a, .set b, .flag true] true false
/-- `a - b` (itree_mathsets.py 439-441) -/
def MSet.sub (a b : MSet) : Except MErr MSet := mkCombine [.set a, .set b, .flag false] true false

/-- `mSetCombine.get_init_args(full)` (itree_mathsets.py 2131-2146): a single member is followed by `None` -/
def combineArgs (items : List MSet) (union compl full : Bool) : List CArg :=
  (match items with | [s] => [.set s, .none] | l => l.map .set) ++
  (if compl || full then [.flag union, .flag compl] else if !union then [.flag union] else [])

/-- `mSetRoster.get_init_args(full)` (itree_mathsets.py 1780-1790): the items, then the complement flag -/
def rosterArgs (items : List IVal) (compl full : Bool) : List Item × Option Bool :=
  (items.map fun v => ⟨v, false⟩, if full || compl then some compl else none)

/-- `mSetRoster(*items, flag, complement=..)` for item objects (itree_mathsets.py 1548-1617) -/
def ofRosterArgs (a : List Item × Option Bool) (compl : Bool) : MSet := mkRoster a.1 (match a.2 with | some b => compl != b | none => compl)

/-! ### equality -/

/-- equality of the item sets: the same number of elements and every element found in the other set (itree_mathsets.py 1736-1752) -/
def itemSetEq (a b : List IVal) : Bool := a.length == b.length && a.all fun i => b.any fun j => i.eq j

mutual
/-- `s == t` for set objects (itree_mathsets.py 1441-1444, 1736-1752, 1859-1872); containers of other kinds are compared by their own `==`, given by `oeq`.  A roster never equals an object
that is no roster: these have no iterable attribute `items`. -/
def MSet.eq (oeq : MSet → MSet → Bool) : MSet → MSet → Bool
  | .interval s, .interval t => s.eq t
  | .roster i c, .roster j d => itemSetEq i j && c == d
  | .combine i u c, .combine j w d => MSet.eqZip oeq i j && (c == d) && (u == w)
  | .other f n, t => oeq (.other f n) t
  | _, _ => false
/-- the loop over `zip(self.items(), other.items())` (itree_mathsets.py 1859-1872) -/
def MSet.eqZip (oeq : MSet → MSet → Bool) : List MSet → List MSet → Bool
  | s :: ss, t :: ts => MSet.eq oeq s t && MSet.eqZip oeq ss ts
  | _, _ => true
end

/-! ### strings of rosters -/

/-- the pieces between the commas (itree_mathsets.py 1620-1632, 1792-1812) -/
def commaSep : List (List Char) → List Char
  | [] => []
  | [s] => s
  | s :: r => s ++ ',' :: commaSep r

/-- `mSetRoster.math_repr()` (itree_mathsets.py 1792-1812); the items come in the order of the set -/
def rosterRepr (items : List IVal) (compl : Bool) : Option (List Char) :=
  match items.mapM limStr with
  | some l => some ((if compl then ['!', '{'] else ['{']) ++ commaSep l ++ ['}'])
  | none => none

/-- `str.split(',')` (itree_mathsets.py 1620-1632) -/
def splitComma : List Char → List (List Char)
  | [] => [[]]
  | c :: cs => if c = ',' then [] :: splitComma cs else match splitComma cs with
    | [] => [[c]]
    | w :: ws => (c :: w) :: ws

/-- all items of a definition string; the first exception ends (itree_mathsets.py 1569-1618) -/
def parseItems : List (List Char) → Except MErr (List Item)
  | [] => .ok []
  | w :: ws => if w = [] then parseItems ws else match parseItem w false with
    | .error e => .error e
    | .ok i => match parseItems ws with
      | .error e => .error e
      | .ok l => .ok (i :: l)

/-- `mSetRoster._math_def_parser` (itree_mathsets.py 1620-1632): items and complement flag; an empty text raises IndexError (here: type) -/
def parseRoster (s : List Char) : Except MErr (List Item × Bool) :=
  let s := s.filter (· != ' ')
  match s with
  | [] => .error .type
  | c :: _ =>
    let compl := c == '!'
    let s := if c = '!' then s.drop 1 else s
    match s.getLast? with
    | none => .error .type
    | some e =>
      let compl := compl != (e == '\'')
      let s := if e = '\'' then s.dropLast else s
      match s.head?, s.getLast? with
      | some a, some b => if a ≠ '{' ∧ b ≠ '}' then .error .type else (parseItems (splitComma (s.drop 1).dropLast)).map fun l => (l, compl)
      | _, _ => .error .type

/-- `mSetRoster(str)` (itree_mathsets.py 1569-1591): what the parser rejects is taken as the text of one item -/
def rosterOfString (s : List Char) : Except MErr MSet :=
  match parseRoster s with
  | .ok (l, c) => .ok (mkRoster l c)
  | .error _ => (parseItem s false).map fun i => mkRoster [i] false

end MSets
