import Verif.Model.MathOps
/-
Model of the string form of combinations: `mSetCombine.math_repr` (itree_mathsets.py 2086-2112) and `mSetCombine(str)` (1826-1931).
-/
namespace MSets

/-- exceptions while a combination text is read (itree_mathsets.py 1874-1931) -/
inductive CErr where
  | type | index | recursion
  deriving DecidableEq, Repr

/-- the parts joined by `' u '` or `' n '` (itree_mathsets.py 2083-2106) -/
def joinWord (m : Char) : List (List Char) → List Char
  | [] => []
  | [s] => s
  | s :: r => s ++ ' ' :: m :: ' ' :: joinWord m r

mutual
/-- `math_repr()` (itree_mathsets.py 1516-1545, 1792-1812, 2086-2112); none for members without modelled text -/
def MSet.repr : MSet → Option (List Char)
  | .interval i => i.repr
  | .roster items c => rosterRepr items c
  | .combine items union compl => match MSet.reprs items with
    | some l => some (if compl then '!' :: '(' :: (joinWord (if union then 'u' else 'n') l ++ [')']) else joinWord (if union then 'u' else 'n') l)
    | none => none
  | .other _ _ => none
/-- the texts of the members, itree_mathsets.py 2083-2106 -/
def MSet.reprs : List MSet → Option (List (List Char))
  | [] => some []
  | s :: r => match MSet.repr s, MSet.reprs r with
    | some a, some l => some (a :: l)
    | _, _ => none
end

/-- a character put before the first part (helper of the Python function `str.split`, itree_mathsets.py 1874-1931) -/
def pushHead (a : Char) : List (List Char) → List (List Char)
  | [] => [[a]]
  | w :: ws => (a :: w) :: ws

/-- `s.split(' u ')` / `s.split(' n ')` (itree_mathsets.py 1874-1931) -/
def splitWord (m : Char) : List Char → List (List Char)
  | a :: b :: c :: r => if a = ' ' ∧ b = m ∧ c = ' ' then [] :: splitWord m r else pushHead a (splitWord m (b :: c :: r))
  | s => [s]

/-- `mSetInterval(text)` (itree_mathsets.py 700-748): bracket notation, or a text that is one item (a closed lower limit).  Simplification: texts in braces with `|` and the short forms (`x>5`) are not
read here (builder definitions, `Model/Builder`). -/
def ivOfText (s : List Char) : Except MErr Interval :=
  match strip s with
  | [] => .error .type
  | c :: _ => if c = '[' ∨ c = '(' ∨ c = '!' then ofString s else if c = '{' then .error .type
    else (parseItem s false).map fun i => mkInterval i ⟨.num .posInf, false⟩ false false

mutual
/-- `_parse_math_repr` (itree_mathsets.py 1875-1931); the number is the recursion depth left -/
def parseComb : Nat → List Char → Bool → Except CErr (List MSet × Bool × Bool)
  | 0, _, _ => .error .recursion
  | n + 1, s, compl =>
    let s := strip s
    let compl := if s.head? = some '!' then !compl else compl
    let s := if s.head? = some '!' then strip s.tail else s
    let compl := if s.getLast? = some '\'' then !compl else compl
    let s := if s.getLast? = some '\'' then strip s.dropLast else s
    if s = [] then .error .index
    else if s.head? = some '(' ∧ s.getLast? = some ')' then
      match parseComb n (strip s.tail.dropLast) compl with
      | .ok r => .ok r
      | .error _ => parseRest n ('(' :: (strip s.tail.dropLast ++ [')'])) compl
    else parseRest n s compl
/-- the second half: split and read the members (itree_mathsets.py 1874-1931) -/
def parseRest : Nat → List Char → Bool → Except CErr (List MSet × Bool × Bool)
  | n, s, compl =>
    let us := splitWord 'u' s
    let ns := splitWord 'n' s
    if us.length > 1 ∧ ns.length > 1 then .error .type
    else if us.length > 1 then (parseMembers n us).map fun l => (l, true, compl)
    else if ns.length > 1 then (parseMembers n ns).map fun l => (l, false, compl)
    else (parseMembers n [s]).map fun l => (l, true, compl)
/-- the members: interval, else roster, else combination (itree_mathsets.py 1874-1931) -/
def parseMembers : Nat → List (List Char) → Except CErr (List MSet)
  | _, [] => .ok []
  | n, w :: ws =>
    match (match ivOfText w with
      | .ok i => Except.ok (MSet.interval i)
      | .error _ => match rosterOfString w with
        | .ok r => .ok r
        | .error _ => match parseComb n w false with
          | .ok (l, u, c) => .ok (.combine l u c)
          | .error e => .error e) with
    | .error e => .error e
    | .ok m => match parseMembers n ws with
      | .error e => .error e
      | .ok l => .ok (m :: l)
end

/-- `mSetCombine(str)` (itree_mathsets.py 1826-1857), `depth`: the recursion limit -/
def combineOfString (depth : Nat) (s : List Char) : Except CErr MSet :=
  match parseComb depth s false with
  | .ok (l, u, c) => .ok (.combine l u c)
  | .error e => .error e

end MSets
