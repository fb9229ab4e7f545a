import Verif.Model.Idx
/-
`__getitem__` (itree_main.py 2046-2177).
-/
namespace ITree

/-- second component of a tuple target `(tag, sel)` (itree_main.py 2046-2177) -/
inductive FamSel where
  | int (i : Int)
  | slice (s : PySlice)
  | dots
  | list (l : List Int)
  | other (t : Tag)

/-- targets accepted by `__getitem__`, `__setitem__`, `__delitem__`, `insert`, `move` (itree_main.py 2046-2177) -/
inductive Target where
  | int (i : Int)
  | slice (s : PySlice)
  | key (g : Tag) (sel : FamSel)
  | tag (t : Tag)
  | tags (l : List Tag)
  | list (l : List Target)
  | dots
  | filter (p : Id → Bool)
  | item (i : Id)

/-- the same Python object read as a tag, where that is possible (it must be hashable) (itree_main.py 2046-2177) -/
def Target.asTag : Target → Option Tag
  | .int i => some (.int i)
  | .key g (.int i) => some (.pair g (.int i))
  | .key g (.other t) => some (.pair g t)
  | .tag t => some t
  | _ => none

/-- how a tag object `g` written as `t[g]` is dispatched: ints and two-element tuples are read as index resp. key first (itree_main.py 2087-2120) -/
def Target.ofTag : Tag → Target
  | .int i => .int i
  | .pair g (.int i) => .key g (.int i)
  | .pair g t => .key g (.other t)
  | t => .tag t

/-- an item or a list of items (itree_main.py 2046-2177) -/
inductive GetRes where
  | one (i : Id)
  | many (l : List Id)
  deriving DecidableEq, Repr

/-- iterating a (non-int) hashable object as a list of indexes; `none` is TypeError (itree_main.py 2121-2145) -/
def Tag.asIdxs : Tag → Option (List Int)
  | .pair (.int a) (.int b) => some [a, b]
  | .str s => if s = "" then some [] else none
  | _ => none

/-- `list(self._getitem_fam(target))` in the fallback branches (itree_main.py 2121-2177) -/
def fallbackTag (F : Fams) (tg : Target) (e : Err) : Except Err GetRes :=
  match tg.asTag with
  | some t => match F.get? t with
    | some l => .ok (.many l)
    | none => .error e
  | none => .error e

/-- the tuple branch (itree_main.py 2089-2120) -/
def getKey (F : Fams) (g : Tag) (sel : FamSel) : Except Err GetRes :=
  let tg := Target.key g sel
  match F.get? g with
  | none => fallbackTag F tg .key                       -- 2112-2120
  | some fam =>
    match sel with
    | .dots => .ok (.many fam)                          -- 2093-2094
    | .int i => match pyGet fam i with                  -- 2096
      | some x => .ok (.one x)
      | none => fallbackTag F tg .index                 -- 2106-2111
    | .slice s => match pySlice fam s with              -- 2096
      | some l => .ok (.many l)
      | none => fallbackTag F tg .key
    | .list l => match l.mapM (pyGet fam) with          -- 2097-2100
      | some r => .ok (.many r)
      | none => fallbackTag F tg .value
    | .other t => match t.asIdxs with                   -- 2097-2105
      | some l => match l.mapM (pyGet fam) with
        | some r => .ok (.many r)
        | none => fallbackTag F tg .value
      | none => fallbackTag F tg .value

/-- All targets except target-lists (itree_main.py 2087-2177); reading only. Filters are total predicates here; a Python `set` of tags
is given in its iteration order. An `iTree` object is no valid target: it falls through to `_get_fam` (2174) and no tag equals it. -/
def getItem1 (h : Heap) (p : Id) : Target → Except Err GetRes
  | .key g sel => getKey ((h.boundFams p).getD []) g sel                     -- 2089-2120
  | .int i => match pyGet (h.kids p) i with                                  -- 2121-2131
    | some x => .ok (.one x)
    | none => fallbackTag ((h.boundFams p).getD []) (.int i) .index
  | .slice s => match pySlice (h.kids p) s with                              -- 2121-2131
    | some l => .ok (.many l)
    | none => .error .value
  | .tags l => match l.mapM ((h.boundFams p).getD []).get? with              -- 2136-2143
    | some ls => if ls.flatten = [] then .error .key else .ok (.many ls.flatten)
    | none => .error .key
  | .dots => .ok (.many (h.kids p))                                          -- 2156-2157
  | .filter f => .ok (.many ((h.kids p).filter f))                           -- 2158-2164
  | .tag t => match ((h.boundFams p).getD []).get? t with                    -- 2174-2177
    | some l => .ok (.many l)
    | none => .error .key
  | .item _ => .error .key
  | .list _ => .error .key

mutual
/-- `__getitem__` (itree_main.py 2046-2177) -/
def getItem (h : Heap) (p : Id) : Target → Except Err GetRes
  | .list l =>
    if h.kids p = [] then .error .key else
    match getItems h p l with                                                -- 2144-2155
    | .ok r => if r = [] then .error .key else .ok (.many r)
    | .error e => .error e
  | tg => if h.kids p = [] then .error .key else getItem1 h p tg
/-- the target-list loop (itree_main.py 2146-2152) -/
def getItems (h : Heap) (p : Id) : List Target → Except Err (List Id)
  | [] => .ok []
  | t :: ts =>
    match getItem h p t with
    | .error e => .error e
    | .ok r =>
      match getItems h p ts with
      | .error e => .error e
      | .ok rs => .ok ((match r with | .one x => [x] | .many l => l) ++ rs)
end

end ITree
