import Verif.Model.Tree
/-
Model of `iTreeRender` (itree_serializer/itree_renderer.py 50-161).  The texts of `repr` are parameters.  The recursion `_render_main` runs over the snapshot of the tree (Python's recursion limit is not modelled).
-/
namespace ITree

/-- the representations the renderer asks Python for (itree_renderer.py 76-107) -/
structure Reprs where
  cls : List Char
  tag : Tag → List Char
  val : Val → List Char
  file : Option String → List Char
  path : List Tag → List Char

/-- digits of `bin(n)` (Python's `bin`, itree_renderer.py 92-97) -/
def binDigits : Nat → Nat → List Char
  | 0, _ => []
  | k + 1, n => if n < 2 then [if n = 1 then '1' else '0'] else binDigits k (n / 2) ++ [if n % 2 = 1 then '1' else '0']

/-- `bin(flags)` (Python's `bin`, itree_renderer.py 92-97) -/
def binStr (f : Flags) : List Char := '0' :: 'b' :: binDigits 6 f.toNat

/-- the flags shown (itree_renderer.py 92-97): 0 means nothing is shown -/
def shownFlags (f : Flags) (loaded : Bool) : Flags :=
  let g : Flags := if f &&& ~~~ Flags.linked = 0#6 then 0#6 else f
  if loaded && f.has Flags.linkRoot then g ||| Flags.loadLinks else g

/-- the value part (itree_renderer.py 81-84) -/
def valuePieces (P : Reprs) : Val → List (List Char)
  | .noValue => []
  | v => ["value=".toList, P.val v, [',', ' ']]

/-- the link part (itree_renderer.py 85-91) -/
def linkPieces (P : Reprs) : Option LinkSt → List (List Char)
  | some l => if l.file.getD "" ≠ "" ∨ l.path ≠ [] then ["link=iTLink(".toList ++ P.file l.file ++ [','] ++ P.path l.path ++ [')'], [',', ' ']] else []
  | none => []

/-- `link.is_loaded` (itree_renderer.py 84-90) -/
def isLoaded : Option LinkSt → Bool
  | some l => l.loaded
  | none => false

/-- the enumeration number in front of an item (itree_renderer.py 73-76) -/
def cntPieces (natStr : Nat → List Char) : Option Nat → List Char
  | some n => natStr n ++ ['.', ' ']
  | none => []

/-- the pieces in front of the closing bracket (itree_renderer.py 77-103) -/
def itemPieces (P : Reprs) (T : Tree) : List (List Char) :=
  let a := [P.cls ++ ['(']] ++ (if T.tag = .noTag then [] else [P.tag T.tag, [',', ' ']])
  let b := a ++ valuePieces P T.value
  let c := b ++ linkPieces P T.link
  let loaded := isLoaded T.link
  let d := c ++ (if (T.flags ≠ 0#6 ∨ loaded = true) ∧ shownFlags T.flags loaded ≠ 0#6 then ["flags=".toList ++ binStr (shownFlags T.flags loaded)] else [])
  let e := if d.getLast? = some [',', ' '] then d.dropLast else d
  if e.getLast? = some [','] then e.dropLast else e

/-- `_build_item_str(item, enum_cnt)`; the number of the enumeration is printed by `natStr` (itree_renderer.py 76-107) -/
def itemStr (P : Reprs) (natStr : Nat → List Char) (cnt : Option Nat) (T : Tree) : List Char :=
  cntPieces natStr cnt ++ (itemPieces P T).flatten ++ [')', '\n']

/-- the part in front of an item below the root: depends on the level and on `is_linked` (itree_renderer.py 109-160) -/
def lineHead (level : Nat) (linked : Bool) : List Char :=
  ' ' :: ((List.replicate level ['.', ' ', ' ']).flatten ++ (if linked then ['>', '>'] else ['>', ' ']))

/-- does the item pass the filter (itree_renderer.py 109-160) -/
def passes (p : Option (Id → Bool)) (T : Tree) : Bool := match p with | some p => p T.id | none => true

/-- exceptions of the renderer: the unbound local variable `cnt` (itree_renderer.py 109-160) -/
inductive RErr where | unbound
  deriving DecidableEq, Repr

mutual
/-- the children of an item (both loops of `_render_main`, itree_renderer.py 133-160); `cnt` is the number of the next item -/
def renderKids (P : Reprs) (natStr : Nat → List Char) (p : Option (Id → Bool)) (enum : Bool) (level : Nat) : Nat → List Tree → Except RErr (List Char)
  | _, [] => .ok []
  | cnt, k :: ks =>
    if passes p k = false then renderKids P natStr p enum level cnt ks
    else if enum && p.isNone then .error .unbound
    else match renderBelow P natStr p enum (level + 1) k, renderKids P natStr p enum level (cnt + 1) ks with
      | .ok sub, .ok rest => .ok (lineHead level (k.flags.has Flags.linked) ++ itemStr P natStr (if enum then some cnt else none) k ++ sub ++ rest)
      | .error e, _ => .error e
      | _, .error e => .error e
/-- the items below the root, itree_renderer.py 109-160 -/
def renderBelow (P : Reprs) (natStr : Nat → List Char) (p : Option (Id → Bool)) (enum : Bool) (level : Nat) : Tree → Except RErr (List Char)
  | .node _ _ _ _ _ ks => renderKids P natStr p enum level 0 ks
end

/-- `t.renders(filter_method, enumerate)` (itree_main.py 2959-2987, itree_renderer.py 60-74, 116-131) -/
def renders (P : Reprs) (natStr : Nat → List Char) (p : Option (Id → Bool)) (enum : Bool) (T : Tree) : Except RErr (List Char) :=
  match renderBelow P natStr p enum 0 T with
  | .ok s => .ok ((if passes p T then itemStr P natStr (if enum then some 0 else none) T else []) ++ s)
  | .error e => .error e

end ITree
