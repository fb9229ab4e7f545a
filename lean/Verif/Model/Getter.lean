import Verif.Model.Nav
/-
The getter object: `get(*targets)`, `get.single`, `get.iter` and the level getters (itree_getitem.py).
-/
namespace ITree

/-- elements of intermediate results: items, or (by a key with a slice) lists of items that were appended as one element (itree_getitem.py 196-332) -/
inductive Elem where
  | item (i : Id)
  | list (l : List Id)
  deriving DecidableEq, Repr

/-- second component of the pair delivered by `_get_child_ren`: one item, a list, or a lazy `filter` object (always true as a condition) (itree_getitem.py 52-194) -/
inductive Found where
  | one (i : Id)
  | list (l : List Elem)
  | iter (l : List Elem)
  deriving DecidableEq, Repr

/-- a list of items (itree_getitem.py 52-194) -/
def Found.items (l : List Id) : Found := .list (l.map Elem.item)

/-- `False, itree._getitem_fam(target)` in the exception handlers (itree_getitem.py 52-194) -/
def childFallback (F : Fams) (tg : Target) (e : Err) : Except Err (Bool × Found) :=
  match tg.asTag with
  | some t => match F.get? t with
    | some l => .ok (false, .items l)
    | none => .error e
  | none => .error e

/-- the tuple branch of `_get_child_ren` (itree_getitem.py 96-130) -/
def childKey (F : Fams) (g : Tag) (sel : FamSel) : Except Err (Bool × Found) :=
  let tg := Target.key g sel
  match F.get? g with
  | none => childFallback F tg .key
  | some fam =>
    match sel with
    | .dots => .ok (false, .items fam)
    | .int i => match pyGet fam i with
      | some x => .ok (true, .one x)
      | none => childFallback F tg .index
    | .slice s => match pySlice fam s with
      | some l => .ok (true, .items l)                       -- "True" although the result is a list
      | none => childFallback F tg .key
    | .list l => match l.mapM (pyGet fam) with
      | some r => .ok (false, .items r)
      | none => childFallback F tg .value
    | .other t => match t.asIdxs with
      | some l => match l.mapM (pyGet fam) with
        | some r => .ok (false, .items r)
        | none => childFallback F tg .value
      | none => childFallback F tg .value

/-- `_get_child_ren(item, target)` (itree_getitem.py 51-194); the class TagIdx is omitted -/
def childRen (h : Heap) (p : Id) (tg : Target) : Except Err (Bool × Found) :=
  if h.kids p = [] then .error .key else
  let F := (h.boundFams p).getD []
  match tg with
  | .key g sel => childKey F g sel
  | .int i => match pyGet (h.kids p) i with
    | some x => .ok (true, .one x)
    | none => childFallback F (.int i) .index
  | .slice s => match pySlice (h.kids p) s with
    | some l => .ok (false, .items l)
    | none => .error .value
  | .tags l => match l.mapM F.get? with
    | some ls => if ls.flatten = [] then .error .key else .ok (false, .items ls.flatten)
    | none => .error .key
  | .list l => match getItems h p l with
    | .ok r => if r = [] then .error .key else .ok (false, .items r)
    | .error e => .error e
  | .dots => .ok (false, .items (h.kids p))
  | .filter f => .ok (false, .iter (((h.kids p).filter f).map Elem.item))
  | .tag t => match F.get? t with
    | some l => .ok (false, .items l)
    | none => .error .key
  | .item _ => .error .key

/-- `itree[sub_target]` when the code indexes a plain Python list (itree_getitem.py 52-194) -/
def plainIndex (l : List Id) : Target → Except Err (List Id)
  | .int i => match pyGet l i with | some x => .ok [x] | none => .error .index
  | .slice s => match pySlice l s with | some r => .ok r | none => .error .value
  | _ => .error .type

/-- `_get_child_ren(lst, target)` when the previous level delivered a plain list as a "single" result (itree_getitem.py 52-194) -/
def childRenList (l : List Id) (tg : Target) : Except Err (Bool × Found) :=
  if l = [] then .error .key else
  match tg with
  | .key _ _ => .error .key
  | .list ts => match ts.mapM (plainIndex l) with
    | .ok rs => if rs.flatten = [] then .error .key else .ok (false, .items rs.flatten)
    | .error e => .error e
  | .filter f => .ok (false, .iter ((l.filter f).map Elem.item))
  | _ => .error .attribute

/-- the elements a `Found` contributes when iterated (itree_getitem.py 299-332) -/
def Found.elems : Found → List Elem
  | .one i => [.item i]
  | .list l => l
  | .iter l => l

/-- only item elements (a list delivered by a key slice contains items only) (itree_getitem.py 299-332) -/
def Elem.ids : Elem → List Id
  | .item i => [i]
  | .list l => l

/-- one level for a non-single intermediate result (itree_getitem.py 305-312): exceptions are swallowed; a "single" list is appended as one element -/
def levelMany (h : Heap) (tg : Target) : List Elem → List Elem
  | [] => []
  | e :: es =>
    let r := match e with | .item i => childRen h i tg | .list l => childRenList l tg
    (match r with
      | .ok (true, .one x) => [Elem.item x]
      | .ok (true, f) => [Elem.list (f.elems.flatMap Elem.ids)]
      | .ok (false, f) => f.elems
      | .error _ => []) ++ levelMany h tg es

/-- one level (itree_getitem.py 299-312) -/
def levelStep (h : Heap) (tg : Target) : Bool × Found → Except Err (Bool × Found)
  | (true, .one x) => childRen h x tg
  | (true, f) => childRenList (f.elems.flatMap Elem.ids) tg
  | (false, f) => .ok (false, .list (levelMany h tg f.elems))

/-- the loop over the remaining targets (itree_getitem.py 298-312) -/
def levelLoop (h : Heap) : List Target → Bool × Found → Except Err (Bool × Found)
  | [], r => .ok r
  | t :: ts, r => match levelStep h t r with | .ok r' => levelLoop h ts r' | .error e => .error e

/-- result of `get`: an item or a list (itree_getitem.py 196-332) -/
inductive GetOut where
  | one (i : Id)
  | list (l : List Elem)
  deriving DecidableEq, Repr

/-- `get(target, *target_path)` (itree_getitem.py 196-332) without default -/
def getPath (h : Heap) (p : Id) (t : Target) (ts : List Target) : Except Err GetOut :=
  match childRen h p t with
  | .error e => .error e
  | .ok r =>
    if ts = [] then
      match r with
      | (true, .one x) => .ok (.one x)
      | (_, f) => .ok (.list f.elems)
    else
      match levelLoop h ts r with
      | .error e => .error e
      | .ok (_, .one x) => .ok (.one x)
      | .ok (_, .list []) => .error .key
      | .ok (_, f) => .ok (.list f.elems)

/-- `get.single(target, *target_path)` (itree_getitem.py 334-436) without default -/
def getSingle (h : Heap) (p : Id) (t : Target) (ts : List Target) : Except Err GetOut :=
  match childRen h p t with
  | .error e => .error e
  | .ok r =>
    if ts = [] then
      match r with
      | (true, .one x) => .ok (.one x)
      | (true, f) => .ok (.list f.elems)
      | (false, f) => match f.elems with
        | [.item x] => .ok (.one x)
        | [.list l] => .ok (.list (l.map Elem.item))
        | _ => .error .value
    else
      match levelLoop h ts r with
      | .error e => .error e
      | .ok (_, .one x) => .ok (.one x)
      | .ok (_, .list []) => .error .key
      | .ok (_, f) => match f.elems with
        | [.item x] => .ok (.one x)
        | [.list l] => .ok (.list (l.map Elem.item))
        | _ => .error .value

/-- `get.iter(target, *target_path)` (itree_getitem.py 438-537): the delivered iterator as list -/
def getIter (h : Heap) (p : Id) (t : Target) (ts : List Target) : Except Err (List Elem) :=
  match childRen h p t with
  | .error e => .error e
  | .ok r =>
    if ts = [] then
      match r with
      | (true, .one x) => .ok [.item x]
      | (true, f) => .ok [.list (f.elems.flatMap Elem.ids)]
      | (false, f) => .ok f.elems
    else
      match levelLoop h ts r with
      | .error e => .error e
      | .ok (_, .one x) => .ok [.item x]
      | .ok (_, .list []) => .error .key
      | .ok (_, f) => .ok f.elems

/-- `get.by_idx_slice(*slices)` (itree_getitem.py 579-623) without default; the slices of an item without children are empty -/
def byIdxSlice (h : Heap) (p : Id) (s : PySlice) (ss : List PySlice) : Except Err (List Id) :=
  let get : Id → PySlice → Except Err (List Id) := fun q s =>
    match pySlice (h.kids q) s with | some l => .ok l | none => .error .value
  let rec go : List Id → List PySlice → Except Err (List Id)
    | r, [] => .ok r
    | r, s :: ss => match r.mapM fun q => get q s with
      | .error e => .error e
      | .ok ls => if ls.flatten = [] then .error .index else go ls.flatten ss
  match get p s with
  | .error e => .error e
  | .ok r => if ss = [] then (if r = [] then .error .index else .ok r) else go r ss

/-- `get.by_level_filter(f, *fs)` (itree_getitem.py 931-975): `r` is a lazy `filter` object that is exhausted by the first of the further filters, so
only one further level is ever visited. -/
def byLevelFilter (h : Heap) (p : Id) (f : Id → Bool) (fs : List (Id → Bool)) : Except Err (List Id) :=
  if h.kids p = [] then .error .key else
  let r := (h.kids p).filter f
  match fs with
  | [] => .ok r
  | g :: _ => let r2 := r.flatMap fun q => (h.kids q).filter g
    if r2 = [] then .error .key else .ok r2

/-- `get.same_index_children(idx, incl_self)` (itree_getitem.py 980-1007) -/
def sameIndexAux : Nat → Heap → Id → Int → List Id
  | 0, _, _, _ => []
  | n + 1, h, p, i => match pyGet (h.kids p) i with
    | none => []
    | some c => c :: sameIndexAux n h c i
/-- the chain, with the item itself in front if `incl_self` (itree_getitem.py 980-1007) -/
def sameIndexChildren (h : Heap) (p : Id) (i : Int) (inclSelf : Bool) : List Id :=
  (if inclSelf then [p] else []) ++ sameIndexAux h.next h p i

end ITree
