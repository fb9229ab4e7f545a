import Mathlib.Data.Nat.Digits.Defs
import Mathlib.Algebra.Order.Ring.Rat
/-
Model of src/itertree/itree_mathsets.py: mSetItem, mSetInterval, mSetRoster, mSetCombine.
Formatters (how limits are printed) are modelled only for the default formatter on integers.
-/
namespace MSets

/-- exceptions (itree_mathsets.py 1358-1409) -/
inductive MErr where
  | type | overflow | value
  deriving DecidableEq, Repr

/-- Python numbers: `int` (and `bool`), `float`/`Decimal`.  Simplification: finite floats are rationals and the only arithmetic done on limits (`± 1`) is exact; Python rounds for
floats above 2^53. (no code: the numbers given to itree_mathsets.py 102-181) -/
inductive Num where
  | int (z : Int) | flt (q : Rat) | posInf | negInf | nan
  deriving DecidableEq, Repr

/-- the rational value of a finite number (no code: Python numbers) -/
def Num.rat : Num → Option Rat
  | .int z => some z
  | .flt q => some q
  | _ => none

/-- Python `a <= b` on numbers (`int` and `float` compare exactly; every comparison with nan is False) (Python's operator `le`, itree_mathsets.py 44) -/
def Num.le : Num → Num → Bool
  | .nan, _ => false
  | _, .nan => false
  | .negInf, _ => true
  | _, .posInf => true
  | .posInf, _ => false
  | _, .negInf => false
  | .int a, .int b => decide (a ≤ b)
  | .int a, .flt b => decide ((a : Rat) ≤ b)
  | .flt a, .int b => decide (a ≤ (b : Rat))
  | .flt a, .flt b => decide (a ≤ b)

/-- Python `a < b` on numbers (Python's operator `lt`, itree_mathsets.py 44) -/
def Num.lt : Num → Num → Bool
  | .nan, _ => false
  | _, .nan => false
  | .posInf, _ => false
  | _, .negInf => false
  | .negInf, _ => true
  | _, .posInf => true
  | .int a, .int b => decide (a < b)
  | .int a, .flt b => decide ((a : Rat) < b)
  | .flt a, .int b => decide (a < (b : Rat))
  | .flt a, .flt b => decide (a < b)

/-- Python `a == b` on numbers (Python itself; used in itree_mathsets.py 333-348) -/
def Num.eq : Num → Num → Bool
  | .nan, _ => false
  | _, .nan => false
  | .posInf, .posInf => true
  | .negInf, .negInf => true
  | .int a, .int b => decide (a = b)
  | .int a, .flt b => decide ((a : Rat) = b)
  | .flt a, .int b => decide (a = (b : Rat))
  | .flt a, .flt b => decide (a = b)
  | _, _ => false

/-- `n + k` for an integer `k` (Python itself; used in itree_mathsets.py 868-903) -/
def Num.addInt : Num → Int → Num
  | .int z, k => .int (z + k)
  | .flt q, k => .flt (q + k)
  | n, _ => n

/-- `a - b` (inf - inf is nan) (Python itself; used in itree_mathsets.py 868-903) -/
def Num.sub : Num → Num → Num
  | .int a, .int b => .int (a - b)
  | .int a, .flt b => .flt (a - b)
  | .flt a, .int b => .flt (a - b)
  | .flt a, .flt b => .flt (a - b)
  | .nan, _ => .nan
  | _, .nan => .nan
  | .posInf, .posInf => .nan
  | .negInf, .negInf => .nan
  | .posInf, _ => .posInf
  | .negInf, _ => .negInf
  | _, .posInf => .negInf
  | _, .negInf => .posInf

/-- the test `int(value) != value` (itree_mathsets.py 1388): OverflowError for infinities, ValueError for nan -/
def Num.notInt : Num → Except MErr Bool
  | .int _ => .ok false
  | .flt q => .ok (decide (q.den ≠ 1))
  | .nan => .error .value
  | _ => .error .overflow

/-- the value of an mSetItem: a number or a variable name (itree_mathsets.py 112-171) -/
inductive IVal where
  | num (n : Num) | var (s : String)
  deriving DecidableEq, Repr

/-- `==` on item values (a number never equals a name) (itree_mathsets.py 333-348) -/
def IVal.eq : IVal → IVal → Bool
  | .num a, .num b => a.eq b
  | .var a, .var b => a == b
  | _, _ => false

/-- mSetItem: value and complement flag (itree_mathsets.py 79-175). As interval limit the flag means "open". -/
structure Item where
  val : IVal
  compl : Bool := false
  deriving DecidableEq, Repr

/-- is it the name of a variable, itree_mathsets.py 232-239 -/
def IVal.isVar : IVal → Bool
  | .var _ => true
  | _ => false

/-- `mSetItem.__gt__` (itree_mathsets.py 280-291); with a variable it gives None, which counts as False -/
def Item.gt (a b : Item) : Bool :=
  match a.val, b.val with
  | .num x, .num y => y.lt x
  | _, _ => false

/-- mSetInterval after construction: limits, the comparison operators chosen by the constructor, `int_only`, complement flag (itree_mathsets.py 744-809) -/
structure Interval where
  lower : Item
  upper : Item
  /-- `_lower_op` is `lt` -/
  lowerLt : Bool
  /-- `_upper_op` is `gt` -/
  upperGt : Bool
  int : Bool
  compl : Bool
  deriving DecidableEq, Repr

/-- the end of `mSetInterval.__init__`: swap the limits if no variable is involved and they are in wrong order; choose the operators; equal limits of which one is closed are both treated
as closed (itree_mathsets.py 759-784) -/
def mkInterval (lower upper : Item) (int compl : Bool) : Interval :=
  let p := if !lower.val.isVar && !upper.val.isVar && lower.gt upper then (upper, lower) else (lower, upper)
  let bothClosed := p.2.val.eq p.1.val && (!p.1.compl || !p.2.compl)
  { lower := p.1, upper := p.2, lowerLt := if bothClosed then false else p.1.compl, upperGt := if bothClosed then false else p.2.compl, int := int, compl := compl }

/-- replacement values for variables (itree_mathsets.py 1358-1409) -/
abbrev Dict := List (String × Num)

/-- the objects a set can be asked for: numbers, strings, iterables, 2-tuples `(value, dict)`, anything else (not comparable with numbers, hashable) (itree_mathsets.py 1358-1409) -/
inductive El where
  | num (n : Num) | str (s : String) | seq (l : List El) | pair (e : El) (d : Dict) | other

/-- one limit after `_get_lower_upper` (itree_mathsets.py 948-965) -/
def substVar (d : Dict) : IVal → IVal
  | .var s => match d.lookup s with
    | some n => .num n
    | none => .var s
  | v => v

/-- `_get_lower_upper`: `vars_dict is None` leaves the limits as they are (itree_mathsets.py 947-963) -/
def Interval.limits (s : Interval) (d : Option Dict) : IVal × IVal :=
  match d with
  | none => (s.lower.val, s.upper.val)
  | some d => (substVar d s.lower.val, substVar d s.upper.val)

/-- `_lower_op(lower, value)`; a name left in the limit raises TypeError (itree_mathsets.py 1386-1406) -/
def cmpLower (strict : Bool) (lo : IVal) (x : Num) : Except MErr Bool :=
  match lo with
  | .var _ => .error .type
  | .num n => .ok (if strict then n.lt x else n.le x)

/-- `_upper_op(upper, value)` (itree_mathsets.py 1386-1406) -/
def cmpUpper (strict : Bool) (hi : IVal) (x : Num) : Except MErr Bool :=
  match hi with
  | .var _ => .error .type
  | .num n => .ok (if strict then x.lt n else x.le n)

/-- `_lower_op(lower, value) and _upper_op(upper, value)` (itree_mathsets.py 1386-1406) -/
def Interval.ops (s : Interval) (lim : IVal × IVal) (x : Num) : Except MErr Bool :=
  match cmpLower s.lowerLt lim.1 x with
  | .error e => .error e
  | .ok false => .ok false
  | .ok true => cmpUpper s.upperGt lim.2 x

/-- the numeric test of `mSetInterval.__contains__` (itree_mathsets.py 1386-1411) -/
def Interval.test (s : Interval) (lim : IVal × IVal) (x : Num) : Except MErr Bool :=
  let r := if s.int then
      match x.notInt with
      | .error e => .error e
      | .ok true => .ok false
      | .ok false => s.ops lim x
    else s.ops lim x
  r.map fun b => if s.compl then !b else b

mutual
/-- `mSetInterval.__contains__` with `_limits` given (itree_mathsets.py 1364-1411), after a leading `(value, dict)` tuple was taken apart -/
def Interval.body (s : Interval) (lim : IVal × IVal) : El → Except MErr Bool
  | .num x => s.test lim x
  | .str _ => .ok s.compl
  | .other => .error .type
  | .seq l => s.bodyAll lim l
  | .pair e d => match s.enter lim e with
    | .ok true => .ok (d.all fun _ => s.compl)
    | r => r
/-- the same from the start: a tuple `(value, dict)` is replaced by the value (the given limits stay) (itree_mathsets.py 1372-1377) -/
def Interval.enter (s : Interval) (lim : IVal × IVal) : El → Except MErr Bool
  | .pair e _ => s.body lim e
  | .num x => s.test lim x
  | .str _ => .ok s.compl
  | .other => .error .type
  | .seq l => s.bodyAll lim l
/-- `all(self.__contains__(v) for v in value)` (itree_mathsets.py 1383-1385) -/
def Interval.bodyAll (s : Interval) (lim : IVal × IVal) : List El → Except MErr Bool
  | [] => .ok true
  | v :: vs => match s.enter lim v with
    | .ok true => s.bodyAll lim vs
    | r => r
end

/-- is `vars_dict` empty or None (itree_mathsets.py 1676-1692) -/
def noDict : Option Dict → Bool
  | none => true
  | some d => d.isEmpty

/-- `mSetInterval.__contains__(value, vars_dict)` (itree_mathsets.py 1364-1411) -/
def Interval.contains (s : Interval) (v : El) (d : Option Dict) : Except MErr Bool :=
  match v with
  | .pair e d' => if noDict d then s.body (s.limits (some d')) e else s.body (s.limits d) (.pair e d')
  | v => s.body (s.limits d) v

/-- `value in self._item_set or value in _replacement_vars` (itree_mathsets.py 1696): sets compare by hash and `==`; a name in the set is found by the string itself -/
def rosterHit (items : List IVal) (repl : List Num) : El → Bool
  | .num x => items.any (fun i => i.eq (.num x)) || repl.any (fun n => n.eq x)
  | .str s => items.any fun i => i.eq (.var s)
  | _ => false

/-- the numbers for the variables of a roster (itree_mathsets.py 1688-1692) -/
def rosterRepl (items : List IVal) (d : Dict) : List Num :=
  items.filterMap fun i => match i with
    | .var s => d.lookup s
    | _ => none

/-- one level of `mSetRoster.__contains__` for a value which is no iterable (itree_mathsets.py 1676-1705) -/
def rosterTest (items : List IVal) (compl : Bool) (repl : List Num) (v : El) : Except MErr Bool :=
  .ok (if compl then !rosterHit items repl v else rosterHit items repl v)

mutual
/-- `mSetRoster.__contains__` (itree_mathsets.py 1671-1701) after a leading `(value, dict)` tuple was taken apart -/
def rosterBody (items : List IVal) (compl : Bool) (repl : List Num) : El → Except MErr Bool
  | .seq l => rosterAll items compl repl l
  | .pair e d => match rosterEnter items compl repl e with
    | .ok true => .ok (d.all fun p => if compl then !rosterHit items repl (.str p.1) else rosterHit items repl (.str p.1))
    | r => r
  | .num x => rosterTest items compl repl (.num x)
  | .str s => rosterTest items compl repl (.str s)
  | .other => rosterTest items compl repl .other
/-- from the start, with `_replacement_vars` given: the dict of a tuple is used only if there are no replacements yet (itree_mathsets.py 1676-1705) -/
def rosterEnter (items : List IVal) (compl : Bool) (repl : List Num) : El → Except MErr Bool
  | .pair e d => rosterBody items compl (if repl.isEmpty then rosterRepl items d else repl) e
  | .seq l => rosterAll items compl repl l
  | .num x => rosterTest items compl repl (.num x)
  | .str s => rosterTest items compl repl (.str s)
  | .other => rosterTest items compl repl .other
/-- `all(...)` (itree_mathsets.py 1676-1705) -/
def rosterAll (items : List IVal) (compl : Bool) (repl : List Num) : List El → Except MErr Bool
  | [] => .ok true
  | v :: vs => match rosterEnter items compl repl v with
    | .ok true => rosterAll items compl repl vs
    | r => r
end

/-- the replacements computed at the start of `mSetRoster.__contains__` (itree_mathsets.py 1676-1692) -/
def replOf (items : List IVal) : Option Dict → List Num
  | none => []
  | some d => rosterRepl items d

/-- `mSetRoster.__contains__(value, vars_dict)` (itree_mathsets.py 1676-1705) -/
def rosterContains (items : List IVal) (compl : Bool) (v : El) (d : Option Dict) : Except MErr Bool :=
  match v with
  | .pair e d' => if noDict d then rosterBody items compl (rosterRepl items d') e else rosterBody items compl (replOf items d) (.pair e d')
  | v => rosterBody items compl (replOf items d) v

/-- all set objects; `other` is any other container put into an mSetCombine (list, range, set, ...), known by what `value in item` answers and by its `len` (itree_mathsets.py 1815-1857) -/
inductive MSet where
  | interval (s : Interval)
  | roster (items : List IVal) (compl : Bool)
  | combine (items : List MSet) (union : Bool) (compl : Bool)
  | other (f : El → Except MErr Bool) (len : Nat)

/-- is it an mSet object (has `is_mSet`) (itree_mathsets.py 448-455) -/
def MSet.isMSet : MSet → Bool
  | .other _ _ => false
  | _ => true

/-- how the loops of `mSetCombine.__contains__` (itree_mathsets.py 2021-2053) use one answer: `stop` is the answer that ends the loop at once, exceptions of mSet members are remembered -/
def loopStep (stop : Bool) (mset : Bool) (r : Except MErr Bool) (saved : Option MErr) (rest : Option MErr → Except MErr Bool) : Except MErr Bool :=
  match r with
  | .ok b => if b = stop then .ok true else rest saved
  | .error e => if mset then rest (some e) else .error e

/-- end of the loop: the last remembered exception is raised, otherwise nothing stopped the loop (itree_mathsets.py 2007-2054) -/
def loopEnd : Option MErr → Except MErr Bool
  | some e => .error e
  | none => .ok false

/-- a tuple `(value, dict)` given to `mSetCombine.__contains__` is always taken apart (itree_mathsets.py 2018-2019) -/
def unpair (v : El) (d : Option Dict) : El × Option Dict :=
  match v with
  | .pair e d' => (e, some d')
  | v => (v, d)

mutual
/-- `value in s` / `s(value, vars_dict)` (itree_mathsets.py 1358-1409, 1676-1705, 2007-2054) -/
def MSet.contains : MSet → El → Option Dict → Except MErr Bool
  | .interval s, v, d => s.contains v d
  | .roster items c, v, d => rosterContains items c v d
  | .combine items union c, v, d =>
    -- the loop ends early on a hit (union) or a miss (intersection); with early end the answer is `union != complement`
    (MSet.loop union items (unpair v d).1 (unpair v d).2 none).map fun stopped => if stopped then (union != c) else (union == c)
  | .other f _, v, _ => f v
/-- the loop over the members: has it been stopped by an answer equal to `stop`? (itree_mathsets.py 2007-2054) -/
def MSet.loop (stop : Bool) : List MSet → El → Option Dict → Option MErr → Except MErr Bool
  | [], _, _, saved => loopEnd saved
  | s :: ss, v, d, saved => loopStep stop s.isMSet (s.contains v d) saved (fun sv => MSet.loop stop ss v d sv)
end

/-- `switch_complement()` (itree_mathsets.py 463-471) -/
def MSet.switch : MSet → MSet
  | .interval s => .interval { s with compl := !s.compl }
  | .roster i c => .roster i (!c)
  | .combine i u c => .combine i u (!c)
  | .other f n => .other f n

/-- the item set of a roster: complement items are ignored, equal values are stored once (itree_mathsets.py 1547-1615). Simplification: the definition strings `{1,2}` are not modelled. -/
def rosterItems : List Item → List IVal
  | [] => []
  | i :: is => if !i.compl && !((rosterItems is).any fun j => j.eq i.val) then i.val :: rosterItems is else rosterItems is

/-- a roster of items, itree_mathsets.py 1548-1618 -/
def mkRoster (items : List Item) (compl : Bool) : MSet := .roster (rosterItems items) compl

/-! ### iteration and cardinality -/

/-- a cardinality: a number (`int`, or `float` for float limits) (itree_mathsets.py 868-921) -/
abbrev Card := Num

/-- `_cardinality_without_complement` (itree_mathsets.py 869-903) -/
def Interval.card0 (s : Interval) : Card :=
  if s.lower.val.isVar || s.upper.val.isVar then
    if s.upper.val.eq s.lower.val then (if s.lower.compl && s.upper.compl then .int 0 else .int 1) else .posInf
  else match s.lower.val, s.upper.val with
  | .num lo, .num hi =>
    if s.int then
      let lo := if s.lower.compl then lo.addInt 1 else lo
      let hi := if s.upper.compl then hi.addInt (-1) else hi
      let diff := (hi.sub lo).addInt 1
      if diff.lt (.int 0) then .int 0
      else if diff.eq (.int 0) && !(s.upper.compl && s.lower.compl) then .int 1
      else diff
    else if hi.eq lo then (if s.lower.compl && s.upper.compl then .int 0 else .int 1)
    else .posInf
  | _, _ => .posInf

/-- `cardinality` (itree_mathsets.py 905-921) -/
def Interval.card (s : Interval) : Card :=
  if s.compl then
    if s.card0.eq .posInf && s.lower.val.eq (.num .negInf) && s.upper.val.eq (.num .posInf) then .int 0 else .posInf
  else s.card0

/-- `is_empty_set` (itree_mathsets.py 923-932) -/
def Interval.isEmpty (s : Interval) : Bool := if s.compl then false else s.card0.eq (.int 0)

/-- `range(a, b)` as a list (Python's `range`, itree_mathsets.py 1446-1466) -/
def rangeInt (a b : Int) : List Int := (List.range (b - a).toNat).map fun (k : Nat) => a + k

/-- `mSetInterval.__iter__` (itree_mathsets.py 1449-1471); `range` with a float limit raises TypeError -/
def Interval.iter (s : Interval) : Except MErr (List Num) :=
  if s.compl || !s.int then .ok [] else
  match s.lower.val, s.upper.val with
  | .num lo, .num hi =>
    if hi.eq .posInf || lo.eq .negInf then .ok [] else
    let start := if s.lower.compl then lo.addInt 1 else lo
    let stop := if s.upper.compl then hi.addInt (-1) else hi
    if stop.lt start then .ok []
    else if start.eq stop then .ok [start]
    else match start, stop with
      | .int a, .int b => .ok ((rangeInt a (b + 1)).map Num.int)
      | _, _ => .error .type
  | _, _ => .ok []

mutual
/-- `cardinality` of any set (itree_mathsets.py 1622-1635, 1940-1978): rosters count their items, combinations add up (union) or take the smallest (intersection) and ignore their own
complement flag; other containers count with their `len` in a union and are skipped in an intersection. -/
def MSet.card : MSet → Card
  | .interval s => s.card
  | .roster items c => if c then .posInf else .int items.length
  | .combine items union _ => if union then MSet.cardSum items else MSet.cardMin items
  | .other _ n => .int n
/-- the sum over the members, itree_mathsets.py 1945-1965.  Simplification: with an infinite member the sum is infinity (Python's sum of infinities of both signs would be nan). -/
def MSet.cardSum : List MSet → Card
  | [] => .int 0
  | s :: ss => match s.card, MSet.cardSum ss with
    | .int a, .int b => .int (a + b)
    | .int a, .flt b => .flt (a + b)
    | .flt a, .int b => .flt (a + b)
    | .flt a, .flt b => .flt (a + b)
    | _, _ => .posInf
/-- the minimum over the members, itree_mathsets.py 1945-1965 -/
def MSet.cardMin : List MSet → Card
  | [] => .posInf
  | s :: ss => if !s.isMSet || (MSet.cardMin ss).lt s.card then MSet.cardMin ss else s.card
end

/-- `is_empty_set` (itree_mathsets.py 923-932, 1649-1657, 1983-1991) -/
def MSet.isEmpty : MSet → Bool
  | .interval s => s.isEmpty
  | s => s.card.eq (.int 0)

/-! ### iter_in, filter -/

/-- one answer of `iter_in` / one decision of `filter` of an interval: `__contains__(v, _limits=limits)` (itree_mathsets.py 1468-1494) -/
def Interval.iterIn (s : Interval) (l : List El) (d : Option Dict) : List (Except MErr Bool) := l.map (s.enter (s.limits d))

/-- `iter_in` of combinations: `__contains__(v, vars_dict)` for every v (itree_mathsets.py 2108-2117) -/
def MSet.iterIn : MSet → List El → Option Dict → List (Except MErr Bool)
  | .interval s, l, d => s.iterIn l d
  | .roster items c, l, d => l.map (rosterEnter items c (replOf items d))
  | s, l, d => l.map fun v => s.contains v d

/-! ### equality, init arguments -/

/-- `mSetItem.__eq__` (itree_mathsets.py 333-348): if exactly one of the two is a complement item the values must differ -/
def Item.eq (a b : Item) : Bool := if a.compl != b.compl then !a.val.eq b.val else a.val.eq b.val

/-- `mSetInterval.get_init_args(full)` (itree_mathsets.py 1500-1514): limits, then optionally the int flag, then optionally the complement flag. -/
def Interval.args (s : Interval) (full : Bool) : Item × Item × Option Bool × Option Bool :=
  if full || s.compl then (s.lower, s.upper, some s.int, some true)
  else if s.int then (s.lower, s.upper, some true, none)
  else (s.lower, s.upper, none, none)

/-- `mSetInterval(*args)` (itree_mathsets.py 674-809) -/
def ofArgs (a : Item × Item × Option Bool × Option Bool) : Interval := mkInterval a.1 a.2.1 (a.2.2.1.getD false) (a.2.2.2.getD false)

/-- `mSetInterval.__eq__` (itree_mathsets.py 1444-1447): the init arguments are compared as tuples -/
def Interval.eq (s u : Interval) : Bool :=
  (s.args false).1.eq (u.args false).1 && (s.args false).2.1.eq (u.args false).2.1 && decide ((s.args false).2.2 = (u.args false).2.2)

end MSets
