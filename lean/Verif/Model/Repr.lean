import Verif.Model.Serialize
import Verif.Model.Nav
import Verif.Spec.Rep
/-
Model of `repr(x)` and `eval(repr(x))` (itree_main.py 2857-2904) and of pickling (`__reduce__`, `get_init_args`, itree_main.py 3013-3053).
The printed forms of tags, values and link arguments belong to their classes: they are a parameter (`Literals`).  The evaluation of a link root marked LOAD_LINKS, which loads the link at once, is not modelled.
-/
namespace ITree

/-- What Python does with the tags and values: `repr` and the evaluation of an expression at the front of a text (object and rest of the text).
`linkRepr f p` is the text `repr(file_path),repr(target_path)`. (itree_main.py 2857-2904) -/
structure Literals where
  tagRepr : Tag → List Char
  valRepr : Val → List Char
  tagEval : List Char → Option (Tag × List Char)
  valEval : List Char → Option (Val × List Char)
  linkRepr : Option String → List Tag → List Char
  linkEval : List Char → Option ((Option String × List Tag) × List Char)

/-- the pieces of text the code collects in `out`, joined.  `out[-1] == ', '` and then `out[-1] == ','` are cut off (itree_main.py 2898-2904). -/
def closeRepr (out : List (List Char)) : List Char :=
  let out := if out.getLast? = some [',', ' '] then out.dropLast else out
  let out := if out.getLast? = some [','] then out.dropLast else out
  out.flatten ++ [')']

/-- `', '.join(...)`, the inside of the printed list (itree_main.py 2857-2904) -/
def commaJoin : List (List Char) → List Char
  | [] => []
  | [s] => s
  | s :: ss => s ++ ',' :: ' ' :: commaJoin ss

/-- all results or nothing (itree_main.py 2857-2904) -/
def allSome {α β : Type} (f : α → Option β) : List α → Option (List β)
  | [] => some []
  | a :: as => match f a, allSome f as with
    | some b, some bs => some (b :: bs)
    | _, _ => none

/-- digits of `bin(n)`, `n < 64` (itree_main.py 2892-2897) -/
def flagDigits (n : Nat) : List Char := if n = 0 then ['0'] else ((Nat.digits 2 n).map fun d => if d = 1 then '1' else '0').reverse

/-- `value is NoValue` (itree_main.py 2875-2880) -/
def Val.isNoValue : Val → Bool
  | .noValue => true
  | _ => false

/-- the pieces for the tag and the value (itree_main.py 2866-2874) -/
def reprHead (L : Literals) (t : Tag) (v : Val) : List (List Char) :=
  ["iTree(".toList] ++ (if t = .noTag then [] else [L.tagRepr t, [',', ' ']]) ++ (if v.isNoValue then [] else ["value=".toList, L.valRepr v, [',', ' ']])

/-- the piece for the flags (itree_main.py 2892-2897) -/
def reprFlags (f : Flags) : List (List Char) := if f = 0#6 then [] else ["flags=0b".toList ++ flagDigits f.toNat]

/-- the pieces for the link; `c` is `repr` of the covered item (itree_main.py 2884-2891) -/
def reprLink (L : Literals) (c : List Char) : Option LinkSt → List (List Char)
  | none => []
  | some lk => [(if lk.cover.isSome then "link=iTLink(link_item=".toList ++ c else "link=iTLink(".toList ++ L.linkRepr lk.file lk.path) ++ [')'], [',', ' ']]

/-- the flags that are printed: with LOAD_LINKS when the link is loaded (itree_main.py 2890-2896) -/
def shownBits (f : Flags) : Option LinkSt → Flags
  | none => f
  | some lk => if lk.loaded then f ||| Flags.loadLinks else f

/-- the pieces for the link and the flags (itree_main.py 2883-2897) -/
def reprTail (L : Literals) (c : List Char) (f : Flags) (l : Option LinkSt) : List (List Char) := reprLink L c l ++ reprFlags (shownBits f l)

/-- the covered item of a link (`_link_item`), asked for its text (itree_main.py 2886-2887) -/
def coverText (p : Id → Option (List Char)) : Option LinkSt → Option (List Char)
  | none => some []
  | some lk => match lk.cover with
    | none => some []
    | some j => p j

/-- `repr(x)` with recursion limit `lim`; `n` bounds the recursion depth of the model (itree_main.py 2857-2904) -/
def reprItem (L : Literals) (lim : Nat) (h : Heap) : Nat → Id → Option (List Char)
  | 0, _ => none
  | n + 1, x => (coverText (reprItem L lim h n) (h.node x).link).bind fun c =>
    if h.kids x = [] then some (closeRepr (reprHead L (h.tag x) (h.node x).value ++ reprTail L c (h.flags x) (h.node x).link))
    else if lim < 5 * h.level x then some (closeRepr (reprHead L (h.tag x) (h.node x).value ++ ["subtree=[ ... ]".toList] ++ reprTail L c (h.flags x) (h.node x).link))
    else (allSome (reprItem L lim h n) (h.kids x)).map fun ks =>
      closeRepr (reprHead L (h.tag x) (h.node x).value ++ ["subtree=".toList, '[' :: (commaJoin ks ++ [']']), [',', ' ']] ++ reprTail L c (h.flags x) (h.node x).link)

/-! ### evaluation -/

/-- the text must begin with `p`: what follows (Python's `eval` of the text of itree_main.py 2857-2904) -/
def dropPre : List Char → List Char → Option (List Char)
  | [], s => some s
  | c :: p, d :: s => if c = d then dropPre p s else none
  | _ :: _, [] => none

/-- after an argument: `, ` and another argument, or the closing bracket (Python's `eval` of the text of itree_main.py 2857-2904) -/
def argEnd : List Char → Option (List Char)
  | ',' :: ' ' :: s => some s
  | ')' :: s => some (')' :: s)
  | _ => none

/-- the positional argument `tag`, absent when a keyword argument or the end comes first.  Simplification: arguments are read in the order of the signature only. (Python's `eval` of the text of itree_main.py 2857-2904) -/
def readTag (L : Literals) (s : List Char) : Option (Tag × List Char) :=
  if (dropPre "value=".toList s).isSome || (dropPre "subtree=".toList s).isSome || (dropPre "link=".toList s).isSome || (dropPre "flags=".toList s).isSome || (dropPre [')'] s).isSome then some (.noTag, s)
  else (L.tagEval s).bind fun r => (argEnd r.2).map fun s' => (r.1, s')

/-- the keyword argument `value` (Python's `eval` of the text of itree_main.py 2857-2904) -/
def readValue (L : Literals) (s : List Char) : Option (Val × List Char) :=
  match dropPre "value=".toList s with
  | none => some (.noValue, s)
  | some s1 => (L.valEval s1).bind fun r => (argEnd r.2).map fun s' => (r.1, s')

/-- the items of a list, up to the closing bracket (Python's `eval` of the text of itree_main.py 2857-2904) -/
def readList {α : Type} (p : List Char → Option (α × List Char)) : Nat → List Char → Option (List α × List Char)
  | 0, _ => none
  | n + 1, s => match p s with
    | none => none
    | some (a, ',' :: ' ' :: s') => (readList p n s').map fun r => (a :: r.1, r.2)
    | some (a, ']' :: s') => some ([a], s')
    | some _ => none

/-- the keyword argument `subtree`: a list of constructor calls (Python's `eval` of the text of itree_main.py 2857-2904) -/
def readSub (p : List Char → Option (Shape × List Char)) (n : Nat) (s : List Char) : Option (List Shape × List Char) :=
  match dropPre "subtree=[".toList s with
  | none => some ([], s)
  | some s1 => (readList p n s1).bind fun r => (argEnd r.2).map fun s' => (r.1, s')

/-- the keyword argument `link`: a constructor call with file and path (Python's `eval` of the text of itree_main.py 2857-2904).  Simplification: `link_item=` (printed for items that cover a linked one) is not read. -/
def readLink (L : Literals) (s : List Char) : Option (Option (Option String × List Tag) × List Char) :=
  match dropPre "link=iTLink(".toList s with
  | none => some (none, s)
  | some s1 => (L.linkEval s1).bind fun r => (dropPre [')'] r.2).bind fun s2 => (argEnd s2).map fun s' => (some r.1, s')

/-- the keyword argument `flags`, a binary literal (Python's `eval` of the text of itree_main.py 2857-2904) -/
def readFlags (s : List Char) : Option (Flags × List Char) :=
  match dropPre "flags=0b".toList s with
  | none => some (0#6, s)
  | some s1 =>
    let isBin := fun c : Char => c == '0' || c == '1'
    if s1.takeWhile isBin = [] then none
    else some (BitVec.ofNat 6 ((s1.takeWhile isBin).foldl (fun a c => 2 * a + (if c = '1' then 1 else 0)) 0), s1.dropWhile isBin)

/-- one constructor call at the front of the text: the arguments of the call, nested (a `Shape`), and the rest of the text (Python's `eval` of the text of itree_main.py 2857-2904) -/
def readItem (L : Literals) : Nat → List Char → Option (Shape × List Char)
  | 0, _ => none
  | n + 1, s =>
    (dropPre "iTree(".toList s).bind fun s =>
    (readTag L s).bind fun t =>
    (readValue L t.2).bind fun v =>
    (readSub (readItem L n) (n + 1) v.2).bind fun k =>
    (readLink L k.2).bind fun l =>
    (readFlags l.2).bind fun f =>
    (dropPre [')'] f.2).map fun s => (.node t.1 v.1 f.1 (l.1.map fun q => { file := q.1, path := q.2 }) k.1, s)

mutual
/-- evaluation of nested constructor calls: the arguments first, from left to right, then the call itself (Python's evaluation order; also what unpickling does with the
nested pairs of class and arguments) (the constructor itree_main.py 110-311) -/
def rebuild : Heap → Shape → Heap × Id
  | h, .node t v f l ks => heapBuilder.new (rebuildL h ks).1 t v (rebuildL h ks).2 f l
/-- a list of constructor calls, itree_main.py 110-311 -/
def rebuildL : Heap → List Shape → Heap × List Id
  | h, [] => (h, [])
  | h, k :: ks => ((rebuildL (rebuild h k).1 ks).1, (rebuild h k).2 :: (rebuildL (rebuild h k).1 ks).2)
end

/-- `eval(text)`: the whole text must be one expression (Python's `eval` of the text of itree_main.py 2857-2904) -/
def evalText (L : Literals) (h : Heap) (s : List Char) : Option (Heap × Id) :=
  match readItem L (s.length + 1) s with
  | some (e, []) => some (rebuild h e)
  | _ => none

/-! ### pickle -/

/-- the arguments of an object in the list of the children; a placeholder is a new item without children (itree_private.py 763-777, itree_main.py 3013-3054) -/
def reduceKid (p : Id → Option Shape) : DItem → Option Shape
  | .item y => p y
  | .ph t k => some (.node t (.int k) Flags.placeholder none [])

/-- the link argument: a fresh `iTLink` with file and path for link roots, otherwise none (itree_main.py 3046-3048) -/
def reduceLink (f : Flags) (l : Option LinkSt) : Option LinkSt := if f.has Flags.linkRoot then l.map fun l => { file := l.file, path := l.path } else none

/-- the arguments `__reduce__` hands to pickle, nested: `[tag, value, list(self) or None]`, for link roots the children as `_iter_locals_add_placeholders` gives them and the link, then the flags
(itree_main.py 3013-3054).  Exceptions of `_iter_locals_add_placeholders` are `none` (there are none, `dumpKids_eq`). -/
def reduceItem (h : Heap) : Nat → Id → Option Shape
  | 0, _ => none
  | n + 1, x => match dumpKids h x with
    | .error _ => none
    | .ok l => (allSome (reduceKid (reduceItem h n)) l).map fun ks => .node (h.tag x) (h.node x).value (h.flags x) (reduceLink (h.flags x) (h.node x).link) ks

end ITree
