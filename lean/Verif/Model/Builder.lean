import Verif.Model.MathStr
/-
Model of the set-builder definitions of intervals, `mSetInterval('{x| 1<=x, x<=5}')` (itree_mathsets.py 638-650, 999-1356) and of the constructor for their result (744-812).

Input of the model are the named groups the regular expression `_REGEX_BUILDER` delivers, with the limit texts already read by `mSetItem(text)` (so also float texts are covered).  The regular
expression itself is not modelled; a text it does not match raises TypeError.
-/
namespace MSets

/-- exceptions of a builder definition (itree_mathsets.py 1121-1356) -/
inductive BErr where
  | type | attribute
  deriving DecidableEq, Repr

/-- the comparison operators (itree_mathsets.py 638-650) -/
inductive Cmp where
  | le | lt | ge | gt
  deriving DecidableEq, Repr

/-- one statement right of the `|` (itree_mathsets.py 638-650): `lv lo x uo uv`, `x uo uv`, `lv lo x`, an (in)equality on either side (`neg`: `!=`), or `x e DOMAIN`.  The pattern allows an equality
operator only alone and `e` only behind the variable. -/
inductive Part where
  | two (lv : IVal) (lo uo : Cmp) (uv : IVal)
  | right (uo : Cmp) (uv : IVal)
  | left (lv : IVal) (lo : Cmp)
  | eqRight (neg : Bool) (uv : IVal)
  | eqLeft (lv : IVal) (neg : Bool)
  | dom (name : List Char)
  deriving DecidableEq, Repr

/-- the content of an item the builder made: a number or variable name, or – `mSetItem(mSetItem(..))` – a whole item (itree_mathsets.py 1065, 1101, accepted because `float(item)` works) -/
inductive BVal where
  | plain (v : IVal)
  | wrap (i : Item)
  deriving DecidableEq, Repr

/-- an item the builder made (itree_mathsets.py 1056-1119) -/
structure BItem where
  val : BVal
  compl : Bool
  deriving DecidableEq, Repr

/-- a limit as `_get_set_data` gives it: `n` or the tuple `(n, True)` (itree_mathsets.py 999-1054) -/
structure DLim where
  n : Num
  isOpen : Bool := false
  deriving DecidableEq, Repr

/-- `str.replace` (Python itself; used in itree_mathsets.py 1121-1200) -/
def replaceAll (old new : List Char) : Nat → List Char → List Char
  | 0, s => s
  | _ + 1, [] => []
  | n + 1, c :: cs => if old.isPrefixOf (c :: cs) then new ++ replaceAll old new n ((c :: cs).drop old.length) else c :: replaceAll old new n cs

/-- `s.replace(old, new)`, itree_mathsets.py 1121-1200 -/
def repl (old new : String) (s : List Char) : List Char := replaceAll old.toList new.toList (s.length + 1) s

/-- `_get_set_data` (itree_mathsets.py 999-1053) -/
def getSetData (name : List Char) : Except BErr (Bool × DLim × DLim) :=
  let s := repl "int" "Z" (repl "integer" "Z" (repl "Integer" "Z" name))
  let s := repl "double" "R" (repl "Double" "R" (repl "float" "R" (repl "Float" "R" s)))
  if s ∈ ["bool".toList, "boolean".toList, "Boolean".toList, "N01".toList, "N10".toList] then .ok (true, ⟨.int 0, false⟩, ⟨.int 1, false⟩) else
  match s with
  | [] => .error .type
  | 'N' :: r =>
    match r with
    | [] => .ok (true, ⟨.int 0, false⟩, ⟨.posInf, false⟩)
    | ['+'] => .ok (true, ⟨.int 1, false⟩, ⟨.posInf, false⟩)
    | ['0'] => .ok (true, ⟨.int 0, false⟩, ⟨.posInf, false⟩)
    | ['+', '0'] => .ok (true, ⟨.int 0, false⟩, ⟨.posInf, false⟩)
    | ['0', '+'] => .ok (true, ⟨.int 0, false⟩, ⟨.posInf, false⟩)
    | _ => .error .type
  | c :: r =>
    let int := c == 'Z'
    match r with
    | [] => .ok (int, ⟨.negInf, false⟩, ⟨.posInf, false⟩)
    | ['+'] => .ok (int, ⟨.int 0, true⟩, ⟨.posInf, false⟩)
    | ['0'] => .ok (int, ⟨.negInf, false⟩, ⟨.posInf, false⟩)
    | ['-'] => .ok (int, ⟨.negInf, false⟩, ⟨.int 0, true⟩)
    | ['+', '0'] => .ok (int, ⟨.int 0, false⟩, ⟨.posInf, false⟩)
    | ['-', '0'] => .ok (int, ⟨.negInf, false⟩, ⟨.int 0, false⟩)
    | ['0', '-'] => .ok (int, ⟨.negInf, false⟩, ⟨.int 0, false⟩)
    | ['0', '+'] => .ok (int, ⟨.int 0, false⟩, ⟨.posInf, false⟩)
    | _ => .error .type

/-- the number a comparison works on: of the content, or of the item inside (`mSetItem.__gt__` .. on the inner item, itree_mathsets.py 263-331); none for variables (the comparison gives `None`) -/
def BVal.num? : BVal → Option Num
  | .plain (.num n) => some n
  | .plain (.var _) => none
  | .wrap ⟨.num n, _⟩ => some n
  | .wrap ⟨.var _, _⟩ => none

/-- `item.is_var`: only the outer item is asked (itree_mathsets.py 232-239) -/
def BItem.isVar (b : BItem) : Bool := match b.val with | .plain (.var _) => true | _ => false

/-- `a > b`, `None` counting as False (itree_mathsets.py 280-291) -/
def BItem.gt (a b : BItem) : Bool :=
  match a.val.num?, b.val.num? with
  | some x, some y => y.lt x
  | _, _ => false

/-- `a >= b` (itree_mathsets.py 306-318) -/
def BItem.ge (a b : BItem) : Bool :=
  match a.val.num?, b.val.num? with
  | some x, some y => y.le x
  | _, _ => false

/-- `a.value == b.value` (itree_mathsets.py 333-346 when one of them is an item) -/
def BVal.eq : BVal → BVal → Bool
  | .plain a, .plain b => a.eq b
  | .plain a, .wrap i => if i.compl then !i.val.eq a else i.val.eq a
  | .wrap i, .plain a => if i.compl then !i.val.eq a else i.val.eq a
  | .wrap i, .wrap j => i.eq j

/-- `_replace_lower_limit` for a fresh item (itree_mathsets.py 1056-1084): the first limit is wrapped; for a second one `old.has_vars` is read, which items do not have.  (The `is_equal` test before it is
never true here: an equality stands alone.) -/
def replaceLower (old : Option BItem) (new : Item) : Except BErr BItem :=
  match old with
  | none => .ok ⟨.wrap new, false⟩
  | some _ => .error .attribute

/-- `_replace_upper_limit` for a fresh item (itree_mathsets.py 1086-1119) -/
def replaceUpper (old : Option BItem) (new : Item) : Except BErr BItem :=
  match old with
  | none => .ok ⟨.wrap new, false⟩
  | some o =>
    if o.isVar then .error .type
    else if new.val.isVar then .error .type
    else if new.compl then .ok (if o.gt ⟨.plain new.val, false⟩ then ⟨.wrap new, false⟩ else o)
    else .ok (if o.ge ⟨.plain new.val, false⟩ then ⟨.wrap new, false⟩ else o)

/-- `_replace_upper_limit` for the limit of a domain (itree_mathsets.py 1086-1119); with an old limit above an open one `mSetItem((0, True))` raises -/
def replaceDom (old : Option BItem) (new : DLim) : Except BErr BItem :=
  match old with
  | none => .ok ⟨.plain (.num new.n), new.isOpen⟩
  | some o =>
    if o.isVar then .error .type
    else if new.isOpen then (if o.gt ⟨.plain (.num new.n), false⟩ then .error .type else .ok o)
    else .ok (if o.ge ⟨.plain (.num new.n), false⟩ then ⟨.plain (.num new.n), false⟩ else o)

/-- the collected limits and `is_int` (itree_mathsets.py 1196-1201) -/
structure BState where
  lower : Option BItem := none
  upper : Option BItem := none
  int : Bool := false
  deriving DecidableEq, Repr

/-- `lower = self._replace_lower_limit(lower, item)`, itree_mathsets.py 1202-1350 -/
def BState.setLower (s : BState) (i : Item) : Except BErr BState := (replaceLower s.lower i).map fun b => { s with lower := some b }
/-- `upper = self._replace_upper_limit(upper, item)`, itree_mathsets.py 1202-1350 -/
def BState.setUpper (s : BState) (i : Item) : Except BErr BState := (replaceUpper s.upper i).map fun b => { s with upper := some b }

/-- `lv lo x` (itree_mathsets.py 1216-1225, 1298-1305) -/
def BState.cmpLeft (s : BState) (lv : IVal) : Cmp → Except BErr BState
  | .ge => s.setUpper ⟨lv, false⟩
  | .gt => s.setUpper ⟨lv, true⟩
  | .le => s.setLower ⟨lv, false⟩
  | .lt => s.setLower ⟨lv, true⟩

/-- `x uo uv` (itree_mathsets.py 1252-1259, 1323-1330) -/
def BState.cmpRight (s : BState) (uv : IVal) : Cmp → Except BErr BState
  | .ge => s.setLower ⟨uv, false⟩
  | .gt => s.setLower ⟨uv, true⟩
  | .le => s.setUpper ⟨uv, false⟩
  | .lt => s.setUpper ⟨uv, true⟩

/-- `x e DOMAIN` (itree_mathsets.py 1262-1281, 1344-1348): both limits go through `_replace_upper_limit` -/
def BState.domain (s : BState) (name : List Char) : Except BErr BState := do
  let (int, lo, hi) ← getSetData name
  let lower ← replaceDom s.lower lo
  let upper ← replaceDom s.upper hi
  pure { lower := some lower, upper := some upper, int := int }

/-- is the part an equation, itree_mathsets.py 1306-1343 -/
def Part.isEq : Part → Bool
  | .eqRight _ _ => true | .eqLeft _ _ => true | _ => false

/-- the first of two statements (itree_mathsets.py 1202-1283) -/
def firstPart (p second : Part) : Except BErr BState :=
  match p with
  | .two lv lo uo uv => do let s ← BState.cmpLeft {} lv lo; s.cmpRight uv uo
  | .right uo uv => BState.cmpRight {} uv uo
  | .left lv lo => BState.cmpLeft {} lv lo
  | .eqRight _ _ => .error .type
  | .eqLeft _ _ => .error .type
  | .dom name => if second.isEq then (do let _ ← getSetData name; .error .type) else BState.domain {} name

/-- an (in)equality (itree_mathsets.py 1306-1319, 1331-1343) -/
def BState.equal (s : BState) (neg compl : Bool) (v : IVal) : Except BErr (BState × Bool) :=
  if s.lower.isSome || s.upper.isSome then .error .type
  else .ok ({ s with lower := some ⟨.plain v, false⟩, upper := some ⟨.plain v, false⟩ }, compl != neg)

/-- the last statement (itree_mathsets.py 1285-1350) -/
def lastPart (s : BState) (p : Part) (compl : Bool) : Except BErr (BState × Bool) :=
  match p with
  | .two lv lo uo uv => do let s ← s.cmpLeft lv lo; let s ← s.cmpRight uv uo; pure (s, compl)
  | .right uo uv => (s.cmpRight uv uo).map fun s => (s, compl)
  | .left lv lo => (s.cmpLeft lv lo).map fun s => (s, compl)
  | .eqRight neg v => s.equal neg compl v
  | .eqLeft v neg => s.equal neg compl v
  | .dom name => (s.domain name).map fun s => (s, compl)

/-- an interval with such limits (itree_mathsets.py 744-809) -/
structure BInterval where
  lower : BItem
  upper : BItem
  lowerLt : Bool
  upperGt : Bool
  int : Bool
  compl : Bool
  deriving DecidableEq, Repr

/-- the end of the constructor (itree_mathsets.py 778-809) -/
def mkBuilt (lower upper : Option BItem) (int compl : Bool) : BInterval :=
  let lo := lower.getD ⟨.plain (.num .negInf), false⟩
  let hi := upper.getD ⟨.plain (.num .posInf), false⟩
  let p := if !lo.isVar && !hi.isVar && lo.gt hi then (hi, lo) else (lo, hi)
  let bothClosed := p.2.val.eq p.1.val && (!p.1.compl || !p.2.compl)
  { lower := p.1, upper := p.2, lowerLt := if bothClosed then false else p.1.compl, upperGt := if bothClosed then false else p.2.compl, int := int, compl := compl }

/-- `mSetInterval('{x| first, last}')` (itree_mathsets.py 1131-1356): `pre` – a leading `!`, `post` – a trailing `'` -/
def build (first : Option Part) (last : Part) (pre post : Bool) : Except BErr BInterval := do
  let s ← match first with
    | none => Except.ok {}
    | some p => firstPart p last
  let (s, c) ← lastPart s last pre
  pure (mkBuilt s.lower s.upper s.int (c != post))

/-- the simplified definition in `n` (itree_mathsets.py 735-741): `{n|n e Z, last}`, every exception becomes a TypeError -/
def buildInt (last : Part) (pre : Bool) : Except BErr BInterval :=
  match build (some (.dom ['Z'])) last pre false with
  | .ok b => .ok b
  | .error _ => .error .type

/-- `_get_lower_upper` (itree_mathsets.py 947-963) -/
def BVal.subst (d : Option Dict) : BVal → BVal
  | .plain (.var s) => match d with
    | some d => (match d.lookup s with | some n => .plain (.num n) | none => .plain (.var s))
    | none => .plain (.var s)
  | b => b

/-- `lower_op(lower, x)`: with a plain variable Python raises TypeError, with a variable inside an item the comparison gives `None` (itree_mathsets.py 1386-1406) -/
def BVal.below (strict : Bool) (x : Num) : BVal → Except MErr Bool
  | .plain (.var _) => .error .type
  | .plain (.num n) => .ok (if strict then n.lt x else n.le x)
  | .wrap ⟨.num n, _⟩ => .ok (if strict then n.lt x else n.le x)
  | .wrap ⟨.var _, _⟩ => .ok false

/-- `upper_op(upper, x)` (itree_mathsets.py 1386-1406) -/
def BVal.above (strict : Bool) (x : Num) : BVal → Except MErr Bool
  | .plain (.var _) => .error .type
  | .plain (.num n) => .ok (if strict then x.lt n else x.le n)
  | .wrap ⟨.num n, _⟩ => .ok (if strict then x.lt n else x.le n)
  | .wrap ⟨.var _, _⟩ => .ok false

/-- `lower_op(..) and upper_op(..)` (itree_mathsets.py 1386-1406) -/
def BInterval.ops (s : BInterval) (x : Num) (d : Option Dict) : Except MErr Bool :=
  match (s.lower.val.subst d).below s.lowerLt x with
  | .error e => .error e
  | .ok false => .ok false
  | .ok true => (s.upper.val.subst d).above s.upperGt x

/-- `x in interval` for a number (itree_mathsets.py 1358-1408); as a bool, `None` counts as False -/
def BInterval.contains (s : BInterval) (x : Num) (d : Option Dict) : Except MErr Bool :=
  let r := if s.int then
      match x.notInt with
      | .error e => .error e
      | .ok true => .ok false
      | .ok false => s.ops x d
    else s.ops x d
  r.map fun b => if s.compl then !b else b

end MSets
