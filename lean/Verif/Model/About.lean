import Verif.Model.Repr
import Verif.Model.Deep
import Mathlib.Data.Nat.Bitwise
/-
What items and options tell about themselves: `flags_repr`, `is_linked`, `link_root`, `is_link_loaded`, `is_link_cover` (itree_main.py 798-826, 3154-3225), `str(x)`
(itree_main.py 2906-2957), the option texts of `ITER` (itree_helpers.py 396-448) and the small helpers of itree_helpers.py 73-113, 378-394.
-/
namespace ITree

/-- `text.rstrip('|')` (itree_helpers.py 410-433: Python's `str.rstrip`) -/
def rstripBar (s : List Char) : List Char := (s.reverse.dropWhile (· = '|')).reverse

/-- one `if self._flags & mask != 0: out.extend((name, '|'))` (itree_main.py 812-825) -/
def flagPiece (f mask : Flags) (name : String) : List Char := if f.has mask then name.toList ++ ['|'] else []

/-- `x.flags_repr(public_only)` for an item with flags `f` (itree_main.py 798-826) -/
def flagsRepr (f : Flags) (publicOnly : Bool) : List Char :=
  rstripBar (flagPiece f Flags.readOnlyTree "iTFLAG.READ_ONLY_TREE" ++ flagPiece f Flags.readOnlyValue "iTFLAG.READ_ONLY_VALUE" ++ flagPiece f Flags.loadLinks "iTFLAG.LOAD_LINKS" ++
    if publicOnly then [] else
      flagPiece f Flags.linked "_iTFLAG.LINKED" ++ flagPiece f Flags.linkRoot "_iTFLAG.LINK_ROOT" ++ flagPiece f Flags.placeholder "_iTFLAG.PLACEHOLDER")

/-- `x.is_linked` (itree_main.py 3180-3188) -/
def Heap.isLinkedItem (h : Heap) (x : Id) : Bool := (h.flags x).has Flags.linked

/-- `x.is_placeholder` (itree_main.py 3154-3166) -/
def Heap.isPlaceholder (h : Heap) (x : Id) : Bool := (h.flags x).has Flags.placeholder

/-- `x.is_link_cover` as a truth value (itree_main.py 3168-3177): an `iTLink` object has no length and is true -/
def Heap.isLinkCover (h : Heap) (x : Id) : Bool := match (h.node x).link with
  | none => false
  | some lk => lk.cover.isSome

/-- the upward recursion of `link_root`, `x` being linked (itree_main.py 3207-3213) -/
def linkRootAux : Nat → Heap → Id → Id
  | 0, _, x => x
  | n + 1, h, x => match h.par x with
    | some p => if h.isLinkedItem p then linkRootAux n h p else x
    | none => x

/-- `x.link_root` (itree_main.py 3198-3214); the recursion ends because a chain of parents has fewer steps than there are objects -/
def Heap.linkRootOf (h : Heap) (x : Id) : Option Id := if h.isLinkedItem x then some (linkRootAux h.next h x) else none

/-- Python's `any` over answers that may not come (itree_main.py 703-752) -/
def anySome {α : Type} (f : α → Option Bool) : List α → Option Bool
  | [] => some false
  | a :: as => match f a with
    | none => none
    | some true => some true
    | some false => anySome f as

/-- `x.is_link_loaded` (itree_main.py 3190-3196); `n` bounds recursion and iteration -/
def isLinkLoaded : Nat → Heap → Id → Option Bool
  | 0, _, _ => none
  | n + 1, h, x => match (h.node x).link with
    | some lk => some lk.loaded
    | none => match deepList n h x with
      | none => none
      | some l => anySome (isLinkLoaded n h) (l.filter fun i => h.isLinkRoot i)

/-- the texts of the children joined as `str(x)` does (itree_main.py 2928-2939): up to two are shown in full, of more only the first and the last.
The loop replaces the last comma by the closing bracket. -/
def strKids : List (List Char) → List Char
  | [] => []
  | [a] => a ++ [']']
  | [a, b] => a ++ ',' :: (b ++ [']'])
  | a :: b :: c :: r => a ++ (",...,".toList ++ ((b :: c :: r).getLast (by simp) ++ [']']))

/-- `str(x)` with recursion limit `lim` (itree_main.py 2906-2957).  Simplification: the texts of all children are made, shown or not. -/
def strItem (L : Literals) (lim : Nat) (h : Heap) : Nat → Id → Option (List Char)
  | 0, _ => none
  | n + 1, x => (coverText (reprItem L lim h n) (h.node x).link).bind fun c =>
    if h.kids x = [] then some (closeRepr (reprHead L (h.tag x) (h.node x).value ++ reprTail L c (h.flags x) (h.node x).link))
    else if lim < 5 * h.level x then some (closeRepr (reprHead L (h.tag x) (h.node x).value ++ ["subtree=[ ... ]".toList] ++ reprTail L c (h.flags x) (h.node x).link))
    else (allSome (strItem L lim h n) (h.kids x)).map fun ks =>
      closeRepr (reprHead L (h.tag x) (h.node x).value ++ ["subtree=[".toList ++ strKids ks, [',', ' ']] ++ reprTail L c (h.flags x) (h.node x).link)

/-! ### options of the iterators -/

/-- the names of the options and their bits (itree_helpers.py 400-408) -/
def optionNames : List (Nat × String) := [(0, "DOWN"), (1, "UP"), (2, "REVERSE"), (3, "SELF"), (4, "FILTER_ANY"), (5, "MULTIPLE")]

/-- `' | '.join(...)` (itree_helpers.py 410-433) -/
def barJoin (l : List (List Char)) : List Char := [' ', '|', ' '].intercalate l

/-- `ITER.get_option_str(option)` for an option that is not negative (itree_helpers.py 410-433).  The mask in line 430 does not contain DOWN. -/
def optionStr (o : Nat) : List Char :=
  let names := (optionNames.filter fun e => o.testBit e.1).map fun e => e.2.toList
  let invalid := Nat.ldiff o 0b111110
  barJoin (names ++ if invalid = 0 then [] else ["0b".toList ++ flagDigits invalid])

/-- `ITER.valid_option(option, expected_option)` (itree_helpers.py 435-445) -/
def validOption (o expected : Nat) : Option (List Char) :=
  let invalid := Nat.ldiff o expected
  if invalid = 0 then none else some ("Invalid iteration option(s) given: ".toList ++ optionStr invalid)

/-! ### small helpers; an iterator is the list of what it will still deliver -/

/-- `accu_iterator(iterable, accu_method, initial_value)` (itree_helpers.py 73-83) -/
def accuIterator {α β : Type} (f : β → α → β) : β → List α → List β
  | _, [] => []
  | v, a :: as => f v a :: accuIterator f (f v a) as

/-- `is_iterator_empty(iterator)` (itree_helpers.py 86-101) -/
def isIteratorEmpty {α : Type} : List α → Bool × List α
  | [] => (true, [])
  | a :: as => (false, [a] ++ as)

/-- `rindex(lst, value)` (itree_helpers.py 103-113): the list afterwards and the outcome; `eq` is Python's comparison -/
def rindex {α : Type} (eq : α → α → Bool) (l : List α) (v : α) : List α × Except Err Nat :=
  match l.reverse.findIdx? (fun a => eq a v) with
  | none => (l.reverse, .error .value)
  | some i => (l.reverse.reverse, .ok (l.reverse.length - i - 1))

/-- `getter_to_list(get_result)` (itree_helpers.py 378-394); `none` is the default `None` of a getter that found nothing -/
def getterToList : Option GetRes → Except Err (List Id)
  | some (.one x) => .ok [x]
  | some (.many l) => .ok l
  | none => .error .type

end ITree
