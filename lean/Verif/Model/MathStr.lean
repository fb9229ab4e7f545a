import Verif.Model.MathSet
/-
Model of the string form of intervals: `math_repr` and the parser behind `mSetInterval("[1..5)")` (itree_mathsets.py).  Strings are lists of characters.
Not modelled: floats with a decimal point, hex/octal/binary numbers, the set-builder notation `{x|...}`.
-/
namespace MSets

/-! ### printing -/

/-- a decimal digit (Python's `str`; used in itree_mathsets.py 258-278) -/
def digitChar (d : Nat) : Char := Char.ofNat (48 + d)

/-- `str(n)` of a natural number (Python's `str`; used in itree_mathsets.py 258-278) -/
def decStr (n : Nat) : List Char := if n = 0 then ['0'] else ((Nat.digits 10 n).map digitChar).reverse

/-- `str(z)` (Python's `str`; used in itree_mathsets.py 258-278) -/
def intStr (z : Int) : List Char := if z < 0 then '-' :: decStr z.natAbs else decStr z.natAbs

/-- `mSetItem.math_repr()` with the default formatter (itree_mathsets.py 240-260); floats are not modelled -/
def limStr : IVal → Option (List Char)
  | .var s => some s.toList
  | .num (.int z) => some (intStr z)
  | .num .posInf => some ['i', 'n', 'f']
  | .num .negInf => some ['-', 'i', 'n', 'f']
  | _ => none

/-- `mSetInterval.math_repr()` (itree_mathsets.py 1516-1545) -/
def Interval.repr (s : Interval) : Option (List Char) :=
  match limStr s.lower.val, limStr s.upper.val with
  | some lo, some hi =>
    some ((if s.compl then ['!'] else []) ++ (if s.lower.compl then '(' else '[') :: (lo ++ (if s.int then ['.', '.'] else [',']) ++ hi ++ [if s.upper.compl then ')' else ']']))
  | _, _ => none

/-! ### parsing -/

/-- `strip(' ')` (Python's `str.strip`, itree_mathsets.py 112-118) -/
def strip (s : List Char) : List Char := ((s.dropWhile (· == ' ')).reverse.dropWhile (· == ' ')).reverse

/-- `_VAR_START_CHARACTERS` (itree_mathsets.py 50) -/
def isLetter (c : Char) : Bool := ('a' ≤ c && c ≤ 'z') || ('A' ≤ c && c ≤ 'Z')
/-- a decimal digit, itree_mathsets.py 52 -/
def isDigit (c : Char) : Bool := '0' ≤ c && c ≤ '9'
/-- `_VAR_CHARACTERS` (itree_mathsets.py 51) -/
def isVarChar (c : Char) : Bool := c == '_' || isLetter c || isDigit c

/-- `int(value)` on plain decimal digits with an optional sign. Simplification: underscores inside the number are not modelled. (Python's `int`, itree_mathsets.py 137-170) -/
def pyNat (s : List Char) : Option Nat := if s ≠ [] ∧ s.all isDigit then some (s.foldl (fun a c => 10 * a + (c.toNat - 48)) 0) else none
/-- Python's `int` with an optional sign, itree_mathsets.py 137-170 -/
def pyInt : List Char → Option Int
  | '-' :: s => (pyNat s).map fun n => -(n : Int)
  | '+' :: s => (pyNat s).map fun n => (n : Int)
  | s => (pyNat s).map fun n => (n : Int)

/-- the number part after the sign (itree_mathsets.py 137-170): for a text starting with `0` the code looks at the second character – there is none in "0", the IndexError becomes a TypeError -/
def parseUnsigned (s : List Char) : Except MErr Num :=
  if s = ['i', 'n', 'f'] then .ok .posInf else
  match s with
  | [] => .error .type
  | '0' :: [] => .error .type
  | '0' :: c :: cs => if c ∈ ['x', 'X', 'o', 'O', 'b', 'B'] then .error .type else match pyInt ('0' :: c :: cs) with | some z => .ok (.int z) | none => .error .type
  | s => match pyInt s with | some z => .ok (.int z) | none => .error .type

/-- `value * factor` (itree_mathsets.py 137-170) -/
def Num.neg : Num → Num
  | .int z => .int (-z) | .flt q => .flt (-q) | .posInf => .negInf | .negInf => .posInf | .nan => .nan

/-- `mSetItem(str, complement)` (itree_mathsets.py 112-175) -/
def parseItem (s : List Char) (compl : Bool) : Except MErr Item :=
  match strip s with
  | [] => .error .type
  | c :: cs =>
    if isLetter c && decide (c :: cs ≠ ['i', 'n', 'f']) then
      if (c :: cs).all isVarChar then .ok ⟨.var (String.ofList (c :: cs)), compl⟩ else .error .type
    else if c = '-' then (parseUnsigned (strip cs)).map fun n => ⟨.num n.neg, compl⟩
    else if c = '+' then (parseUnsigned (strip cs)).map fun n => ⟨.num n, compl⟩
    else if isDigit c || c = 'i' then (parseUnsigned (c :: cs)).map fun n => ⟨.num n, compl⟩
    else .error .type

/-- a closing bracket, itree_mathsets.py 630 -/
def isClose (c : Char) : Bool := c == ')' || c == ']'

/-- the last closing bracket: text before, bracket, text after (itree_mathsets.py 630) -/
def lastBr : List Char → Option (List Char × Char × List Char)
  | [] => none
  | c :: cs => match lastBr cs with
    | some (p, b, t) => some (c :: p, b, t)
    | none => if isClose c then some ([], c, cs) else none

/-- `(.+)+` followed by a closing bracket: at least one character before it (itree_mathsets.py 630) -/
def findClose : List Char → Option (List Char × Char × List Char)
  | [] => none
  | c :: cs => (lastBr cs).map fun r => (c :: r.1, r.2)

/-- the separator `,` or `..` at the start, with the rest matched (itree_mathsets.py 630) -/
def sepHere : List Char → Option (Bool × List Char × Char × List Char)
  | ',' :: r => (findClose r).map fun x => (false, x)
  | '.' :: '.' :: r => (findClose r).map fun x => (true, x)
  | _ => none

/-- the last separator after which the rest matches (greedy `.+`) (itree_mathsets.py 630) -/
def lastSep : List Char → Option (List Char × Bool × List Char × Char × List Char)
  | [] => none
  | c :: cs => match lastSep cs with
    | some (p, x) => some (c :: p, x)
    | none => (sepHere (c :: cs)).map fun x => ([], x)

/-- the regular expression `_REGEX_MATH_REP` after the opening bracket (itree_mathsets.py 630-631): lower text, is the separator "..", upper text, closing bracket, remaining text -/
def matchMath : List Char → Option (List Char × Bool × List Char × Char × List Char)
  | [] => none
  | c :: cs => (lastSep cs).map fun r => (c :: r.1, r.2)

/-- is `a` a part of `b` (Python's `in`, itree_mathsets.py 965-997) -/
def isPart (a b : List Char) : Bool := b.tails.any fun t => a.isPrefixOf t

/-- a variable name must occur in the text before the spaces were removed (itree_mathsets.py 965-997) -/
def varOk (i : Item) (text definition : List Char) : Bool := if i.val.isVar then isPart text definition else true

/-- `_parse_math_definition_str` (itree_mathsets.py 967-1001), then the rest of the constructor -/
def parseMath (definition : List Char) (preCompl : Bool) : Except MErr Interval :=
  match definition.filter (· != ' ') with
  | [] => .error .type
  | b :: rest =>
    if b = '(' ∨ b = '[' then
      match matchMath rest with
      | none => .error .type
      | some (lo, dots, hi, close, tail) =>
        if tail = [] ∨ tail = ['\''] then
          match parseItem lo (b == '('), parseItem hi (close == ')') with
          | .ok l, .ok u =>
            if varOk l lo definition && varOk u hi definition then .ok (mkInterval l u dots (preCompl != (tail == ['\'']))) else .error .type
          | _, _ => .error .type
        else .error .type
    else .error .type

/-- `mSetInterval(str)` for the bracket notation (itree_mathsets.py 700-716) -/
def ofString (s : List Char) : Except MErr Interval :=
  match strip s with
  | [] => .error .type
  | '!' :: r => match strip r with
    | '[' :: r' => parseMath ('[' :: r') true
    | '(' :: r' => parseMath ('(' :: r') true
    | _ => .error .type
  | '[' :: r => parseMath ('[' :: r) false
  | '(' :: r => parseMath ('(' :: r) false
  | _ => .error .type

end MSets
