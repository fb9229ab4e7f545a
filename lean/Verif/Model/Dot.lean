import Verif.Model.Render
import Verif.Model.Flags
import Verif.Model.Idx
/-
Model of `iTreeRenderDot` (itree_serializer/itree_render_dot.py 43-126): a tree as a graphviz description.  The texts of `repr` and `%i` are parameters; the recursion runs over the snapshot of the
tree, the heap is threaded because `tag_idx` updates cached positions.
-/
namespace ITree

/-- the texts asked from Python: `repr((tag, idx))`, `repr(tag)`, `repr(value)`, `repr(link)`, `%i` (itree_render_dot.py 77-108) -/
structure DotReprs where
  key : Tag → Int → List Char
  tag : Tag → List Char
  val : Val → List Char
  link : Option LinkSt → List Char
  int : Int → List Char

/-- the name of a node, `'item%i' % number` (itree_render_dot.py 78) -/
def dotName (P : DotReprs) (n : Nat) : List Char := ['i', 't', 'e', 'm'] ++ P.int n

/-- the label without a usable key (itree_render_dot.py 86-90) -/
def dotTagLabel (P : DotReprs) (t : Tag) : List Char := if t = .noTag then ['N', 'o', 'T', 'a', 'g'] else P.tag t

/-- the label with a key (itree_render_dot.py 81-84) -/
def dotKeyLabel (P : DotReprs) (t : Tag) (i : Int) : List Char :=
  if t = .noTag then ['(', 'N', 'o', 'T', 'a', 'g', ','] ++ P.int i ++ [')'] else P.key t i

/-- the label (itree_render_dot.py 79-90): a bare number 0 is false, any other bare number is not subscriptable -/
def dotLabel (P : DotReprs) (key : TagIdx) (t : Tag) : Except Err (List Char) :=
  match key with
  | .none => .ok (dotTagLabel P t)
  | .pair g i => .ok (dotKeyLabel P g i)
  | .bare i => if i = 0 then .ok (dotTagLabel P t) else .error .type

/-- the part ` [label="…"` (itree_render_dot.py 91-100); for a link root with a value `repr` gets two arguments: TypeError -/
def dotContent (P : DotReprs) (label : List Char) (v : Val) (f : Flags) (l : Option LinkSt) : Except Err (List Char) :=
  match v with
  | .noValue => .ok ([' ', '[', 'l', 'a', 'b', 'e', 'l', '=', '"'] ++ label ++ (if f.has Flags.linkRoot then ['|', ' '] ++ P.link l else []) ++ ['"'])
  | v => if f.has Flags.linkRoot then .error .type else .ok ([' ', '[', 'l', 'a', 'b', 'e', 'l', '=', '"'] ++ label ++ ['|', ' ', 'v', 'a', 'l', 'u', 'e', '='] ++ P.val v ++ ['"'])

/-- the colour (itree_render_dot.py 101-106) -/
def dotColor (f : Flags) : List Char :=
  if f.has Flags.linked then ", fillcolor=grey".toList
  else if f.has (Flags.readOnlyValue ||| Flags.linked) then ", fillcolor=cadetblue1".toList
  else if f.has Flags.linkRoot then ", fillcolor=cornflowerblue".toList else []

/-- `.replace('{', '\\{').replace('}', '\\}')` (itree_render_dot.py 107) -/
def dotEscape (s : List Char) : List Char := s.flatMap fun c => if c = '{' ∨ c = '}' then ['\\', c] else [c]

/-- `_build_item` (itree_render_dot.py 77-108) without the closing `];`, given the key -/
def dotItem (P : DotReprs) (n : Nat) (key : TagIdx) (T : Tree) : Except Err (List Char) :=
  match dotLabel P key T.tag with
  | .error e => .error e
  | .ok label => match dotContent P label T.value T.flags T.link with
    | .error e => .error e
    | .ok s => .ok (dotEscape (dotName P n ++ s ++ dotColor T.flags))

/-- the edge from the parent (itree_render_dot.py 119-122) -/
def dotEdge (parent item : List Char) (linked : Bool) : List Char :=
  ['\n', ' '] ++ parent ++ [' ', '-', '-', ' '] ++ item ++ (if linked then "  [style=dotted];".toList else [';'])

mutual
/-- `render_children` (itree_render_dot.py 110-126): the last number used and the pieces appended -/
def dotKids (P : DotReprs) (p : Option (Id → Bool)) (h : Heap) (parent : List Char) (n : Nat) : List Tree → Res (Nat × List (List Char))
  | [] => (h, .ok (n, []))
  | k :: ks =>
    if passes p k = false then dotKids P p h parent n ks
    else
      let r := h.tagIdx k.id
      match r.2 with
      | .error e => (r.1, .error e)
      | .ok key => match dotItem P (n + 1) key k with
        | .error e => (r.1, .error e)
        | .ok s =>
          let q := dotBelow P p r.1 (dotName P (n + 1)) (n + 1) k
          match q.2 with
          | .error e => (q.1, .error e)
          | .ok (m, o) =>
            let w := dotKids P p q.1 parent m ks
            match w.2 with
            | .error e => (w.1, .error e)
            | .ok (m', o') => (w.1, .ok (m', [['\n'], s ++ [']', ';'], dotEdge parent (dotName P (n + 1)) (k.flags.has Flags.linked)] ++ o ++ o'))
/-- the children, itree_render_dot.py 110-126 -/
def dotBelow (P : DotReprs) (p : Option (Id → Bool)) (h : Heap) (parent : List Char) (n : Nat) : Tree → Res (Nat × List (List Char))
  | .node _ _ _ _ _ ks => dotKids P p h parent n ks
end

/-- the first line (itree_render_dot.py 69) -/
def dotHead : List Char := "graph iTree {\n    node [shape=record, fillcolor=cadetblue3, style=\"rounded,filled\"];\n".toList

/-- `renders(itree_object, filter_method)` (itree_render_dot.py 54-75) -/
def dotRender (P : DotReprs) (p : Option (Id → Bool)) (h : Heap) (x : Id) : Res (List Char) :=
  let r := h.tagIdx x
  match r.2 with
  | .error e => (r.1, .error e)
  | .ok key => match dotItem P 0 key (h.tree x) with
    | .error e => (r.1, .error e)
    | .ok s =>
      let q := dotBelow P p r.1 (dotName P 0) 0 (h.tree x)
      match q.2 with
      | .error e => (q.1, .error e)
      | .ok (_, o) => (q.1, .ok (([dotHead, ['\n'], s ++ ", fillcolor=cadetblue];".toList] ++ o ++ [['\n', '}']]).flatten))

end ITree
