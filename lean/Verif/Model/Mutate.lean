import Verif.Model.Lookup
/-
The structure changing methods of `iTree` (itree_main.py 1147-2044) and their private helpers (itree_private.py 223-450).

Conventions. `BLIST_SWITCH` is -1 without the optional package `blist` (itree_helpers.py 60-64), so the branches converting families
to blists are never taken and are omitted. Iterables are given as finite lists that are evaluated before the call.
-/
namespace ITree

/-! ### family and item lists -/

/-- append `x` to the family `t` of the dict (itree_private.py 346-355): new dict and position in the family -/
def famAppend (F : Fams) (t : Tag) (x : Id) : Fams × Nat :=
  match F.get? t with
  | none => (F.set t [x], 0)
  | some l => (F.set t (l ++ [x]), l.length)

/-- `_append_item` (itree_private.py 324-370); the same code is inlined in `append` (itree_main.py 1193-1220).
An item with children always has `_families`. -/
def appendItem (h : Heap) (p x : Id) : Heap :=
  let t := h.tag x
  match h.kids p with
  | [] =>
    let h1 := h.modify p fun n => { n with items := [x], fams := some [(t, [x])], stale := none }
    h1.setParent x (some ⟨p, 0, 0, false⟩)
  | l =>
    let absIdx := l.length
    let h1 := h.setItems p (l ++ [x])
    let Fk := famAppend ((h.boundFams p).getD []) t x
    let h2 := h1.setFams p Fk.1
    h2.setParent x (some ⟨p, absIdx, Fk.2, false⟩)

/-- `_append_item_left` (itree_private.py 373-400), only called on items with children -/
def appendItemLeft (h : Heap) (p x : Id) : Heap :=
  let t := h.tag x
  let h1 := h.setItems p (x :: h.kids p)
  let F := (h.boundFams p).getD []
  let F' := match F.get? t with
    | none => F.set t [x]
    | some l => F.set t (x :: l)
  (h1.setFams p F').setParent x (some ⟨p, 0, 0, false⟩)

/-- Python 3 `round(s / 2)` for an int `s`: halves are rounded to the even neighbour (Python's `round`, itree_private.py 430-450) -/
def roundHalf (s : Nat) : Nat :=
  if s % 2 = 0 then s / 2 else if (s / 2) % 2 = 0 then s / 2 else s / 2 + 1

/-- `_get_family_insertion_idx` (itree_private.py 430-450), recursion depth bounded by the family size -/
def famInsIdxAux : Nat → Heap → List Id → Int → Nat → Res Nat
  | 0, h, _, _, _ => (h, .error .index)
  | fuel + 1, h, fam, k, last =>
    match fam with
    | [] => (h, .error .index)                     -- family[0] on an empty list
    | [x] =>
      let r := h.idx x
      match r.2 with
      | .ok (some i) => (r.1, .ok (if i < k then 1 + last else last))
      | .ok none => (r.1, .error .type)            -- None < int
      | .error e => (r.1, .error e)
    | fam =>
      let i := roundHalf fam.length
      match fam[i]? with
      | none => (h, .error .index)
      | some x =>
        let r := h.idx x
        match r.2 with
        | .ok (some j) =>
          if j < k then famInsIdxAux fuel r.1 (fam.drop i) k (last + i)
          else famInsIdxAux fuel r.1 (fam.take i) k last
        | .ok none => (r.1, .error .type)
        | .error e => (r.1, .error e)

/-- `_get_family_insertion_idx(family, item_idx)` (itree_private.py 430-450) -/
def famInsIdx (h : Heap) (fam : List Id) (k : Int) : Res Nat := famInsIdxAux (fam.length + 1) h fam k 0

/-! ### guards -/

/-- `LINKED | LINK_ROOT | PLACEHOLDER` (itree_main.py 1183-1190) -/
def Flags.linkish : Flags := Flags.linked ||| Flags.linkRoot ||| Flags.placeholder

/-- the protection check of `append` (itree_main.py 1176-1182) -/
def guardAppend (h : Heap) (p : Id) (a : Arg) : Option Err :=
  if h.isProtected p then
    if h.isLinkRoot p then
      match a with
      | .item x => if (h.flags x).has Flags.linkish then some .type else none
      | .val _ => none
    else some .permission
  else none

/-- the protection check of `appendleft`, `insert`, `__setitem__` (itree_main.py 1268-1281, 1328-1341, 1535-1548) -/
def guardPlace (h : Heap) (p : Id) (a : Arg) : Option Err :=
  if h.isProtected p then
    if h.isLinkRoot p then
      match a with
      | .item x =>
        if (h.flags x).has Flags.linkish then some .type
        else if h.linkLoaded p && (h.linkTags p).contains (h.tag x) then some .permission
        else none
      | .val _ => if h.linkLoaded p && (h.linkTags p).contains .noTag then some .permission else none
    else some .permission
  else none

/-- "has the item a parent? / implicit definition of iTree" (itree_main.py 1183-1190, 1282-1287, 1342-1347) -/
def prepItem (h : Heap) (a : Arg) : Res Id :=
  match a with
  | .item x => if (h.node x).parent.isSome then (h, .error .recursion) else (h, .ok x)
  | .val v =>
    let r := h.alloc { tag := .noTag, value := v }
    (r.1, .ok r.2)

/-! ### append, appendleft, insert -/

/-- `append` (itree_main.py 1147-1220), `__iadd__` (1222-1242) -/
def append (h : Heap) (p : Id) (a : Arg) : Res Id :=
  match guardAppend h p a with
  | some e => (h, .error e)
  | none =>
    let r := prepItem h a
    match r.2 with
    | .error e => (r.1, .error e)
    | .ok x => (appendItem r.1 p x, .ok x)

/-- `appendleft` (itree_main.py 1244-1291) -/
def appendLeft (h : Heap) (p : Id) (a : Arg) : Res Id :=
  match guardPlace h p a with
  | some e => (h, .error e)
  | none =>
    let r := prepItem h a
    match r.2 with
    | .error e => (r.1, .error e)
    | .ok x =>
      if r.1.kids p = [] then (appendItem r.1 p x, .ok x) else (appendItemLeft r.1 p x, .ok x)

/-- insertion of `x` at absolute index `k` into an item with children (itree_main.py 1362-1378) -/
def insertAt (h : Heap) (p x : Id) (k : Int) : Res Id :=
  if k = 0 then (appendItemLeft h p x, .ok x) else
  let h1 := h.setItems p (pyInsert (h.kids p) k x)
  let t := h.tag x
  let F := (h.boundFams p).getD []
  match F.get? t with
  | none => ((h1.setFams p (F.set t [x])).setParent x (some ⟨p, k, 0, false⟩), .ok x)
  | some fam =>
    let r := famInsIdx h1 fam k
    match r.2 with
    | .error e => (r.1, .error e)
    | .ok i =>
      ((r.1.setFams p (F.set t (pyInsert fam i x))).setParent x (some ⟨p, k, i, false⟩), .ok x)

/-- the absolute index of the target item of `insert` (itree_main.py 1354-1361). For an `iTree` target the code tests
`target._itree_prt_idx is not self`, which is always true, so ValueError is always raised. -/
def insertPos (h : Heap) (p : Id) (tg : Target) : Res Int :=
  match tg with
  | .int k => (h, .ok (if k < 0 then (h.kids p).length + k else k))
  | .item _ => (h, .error .value)
  | tg =>
    match getItem h p tg with
    | .error e => (h, .error e)
    | .ok (.many _) => (h, .error .attribute)
    | .ok (.one y) =>
      let r := h.idx y
      match r.2 with
      | .ok (some i) => (r.1, .ok i)
      | .ok none => (r.1, .error .type)
      | .error e => (r.1, .error e)

/-- `insert` (itree_main.py 1293-1381); `none` is the target `None` -/
def insert (h : Heap) (p : Id) (tg : Option Target) (a : Arg) : Res Id :=
  match tg with
  | none => append h p a
  | some tg =>
    match guardPlace h p a with
    | some e => (h, .error e)
    | none =>
      let r := prepItem h a
      match r.2 with
      | .error e => (r.1, .error e)
      | .ok x =>
        if r.1.kids p = [] then (appendItem r.1 p x, .ok x) else
        let q := insertPos r.1 p tg
        match q.2 with
        | .error e => (q.1, .error e)
        | .ok k => insertAt q.1 p x k

/-! ### copies -/

/-- the link of a copy: only link roots get one, unloaded (itree_private.py 453-500) -/
def copyLink (t : Tree) : Option LinkSt :=
  if t.flags.has Flags.linkRoot then
    t.link.map fun l => { file := l.file, path := l.path }
  else none

/-- the fresh object made from `get_copy_args` (itree_private.py 453-540).  Value copies are equal values (values have no
identity in this model). Automatic loading of links of a copied link root with LOAD_LINKS is not modelled. -/
def copyNode (t : Tree) : Node :=
  { tag := t.tag, value := t.value, flags := t.flags, link := copyLink t }

mutual
/-- the loop of `_iter_copy` (itree_private.py 573-592), unfolded to a recursion: every child is created, appended to the copied parent and
then filled.  The equivalence of loop and recursion is proved on trees (`Props/Copy`). -/
def buildKids (h : Heap) (p : Id) : List Tree → Heap
  | [] => h
  | k :: rest => buildKids (buildOne h p k) p rest
/-- one child of the loop of `_iter_copy` (itree_private.py 573-592) -/
def buildOne (h : Heap) (p : Id) : Tree → Heap
  | .node i t v f l ks =>
    let r := h.alloc (copyNode (.node i t v f l ks))
    let h1 := appendItem r.1 p r.2
    buildKids h1 r.2 ks
end

/-- `_iter_copy` (itree_private.py 556-593) of a snapshot -/
def build (h : Heap) (t : Tree) : Heap × Id :=
  let r := h.alloc (copyNode t)
  (buildKids r.1 r.2 t.kids, r.2)

/-- `copy`, `__copy__`, `deepcopy`, `copy_keep_value` (itree_main.py 2284-2350) -/
def copyItem (h : Heap) (x : Id) : Heap × Id := build h (h.tree x)

/-! ### extend -/

/-- one round of the loop in `_iter_extend` without deep flags (itree_private.py 302-321) plus the `list.extend` consuming it;
`idx` is the running index. -/
def extendOne (h : Heap) (p : Id) (idx : Nat) (a : Arg) : Heap :=
  let r : Heap × Id := match a with
    | .item x => if (h.node x).parent.isSome then copyItem h x else (h, x)
    | .val v => h.alloc { tag := .noTag, value := v }
  let h1 := r.1
  let x := r.2
  let Fk := famAppend ((h1.node p).fams.getD []) (h1.tag x) x
  let h2 := h1.setFams p Fk.1
  let h3 := h2.setParent x (some ⟨p, idx, Fk.2, false⟩)
  h3.setItems p (h3.kids p ++ [x])

/-- the loop of `_iter_extend` (itree_private.py 224-321) -/
def extendLoop (h : Heap) (p : Id) (idx : Nat) : List Arg → Heap
  | [] => h
  | a :: as => extendLoop (extendOne h p idx a) p (idx + 1) as

/-- `_items.extend(_iter_extend(self, items))` (itree_private.py 224-321): on an empty item the families dict is new and rebound -/
def iterExtend (h : Heap) (p : Id) (as : List Arg) : Heap :=
  let l := h.kids p
  let h1 := if l = [] then h.modify p fun n => { n with fams := some [], stale := none } else h
  extendLoop h1 p l.length as

/-- the protection check of `extend` (itree_main.py 1409-1424) -/
def guardExtend (h : Heap) (p : Id) (as : List Arg) : Option Err :=
  if h.isProtected p then
    if h.isLinkRoot p then
      if h.linkLoaded p && as.any (fun a => match a with | .item x => (h.flags x).has Flags.linkish | .val _ => false)
      then some .permission else none
    else some .permission
  else none

/-- `extend` (itree_main.py 1385-1425) for an iterable that is not an `iTree` -/
def extend (h : Heap) (p : Id) (as : List Arg) : Res Unit :=
  match guardExtend h p as with
  | some e => (h, .error e)
  | none => (iterExtend h p as, .ok ())

/-- `root` (itree_main.py 357-371) -/
def rootAux : Nat → Heap → Id → Id
  | 0, _, x => x
  | n + 1, h, x => match h.par x with | none => x | some p => rootAux n h p

/-- `x.root` (itree_main.py 358-371) -/
def Heap.root (h : Heap) (x : Id) : Id := rootAux h.next h x

/-- `extend` with an `iTree` as argument: its children are the items; if it is part of the same tree it is copied first
(itree_private.py 264-266; on a protected link root `tee` turns the argument into a plain iterator, itree_main.py 1413) -/
def extendTree (h : Heap) (p u : Id) : Res Unit :=
  let as := (h.kids u).map Arg.item
  match guardExtend h p as with
  | some e => (h, .error e)
  | none =>
    if !h.isProtected p && h.root u == h.root p then
      let r := copyItem h u
      (iterExtend r.1 p ((r.1.kids r.2).map Arg.item), .ok ())
    else (iterExtend h p as, .ok ())

/-- the protection check of `extendleft` (itree_main.py 1454-1474) -/
def guardExtendLeft (h : Heap) (p : Id) (as : List Arg) : Option Err :=
  if h.isProtected p then
    if h.isLinkRoot p then
      if h.linkLoaded p && as.any (fun a => match a with
        | .item x => (h.flags x).has Flags.linkish || (h.linkTags p).contains (h.tag x)
        | .val _ => (h.linkTags p).contains .noTag)
      then some .permission else none
    else some .permission
  else none

/-- set `_itree_prt_idx = None` on a list of items (itree_main.py 1477-1479) -/
def orphan (h : Heap) : List Id → Heap
  | [] => h
  | x :: xs => orphan (h.setParent x none) xs

/-- `extendleft` (itree_main.py 1427-1484) -/
def extendLeft (h : Heap) (p : Id) (as : List Arg) : Res Unit :=
  match guardExtendLeft h p as with
  | some e => (h, .error e)
  | none =>
    let old := h.kids p
    let h1 := orphan h old
    let h2 := h1.modify p fun n => { n with items := [], fams := some [] }
    (iterExtend h2 p (as ++ old.map Arg.item), .ok ())

/-! ### delete -/

/-- `del family[i]` for a valid Python index (Python's list; used in itree_main.py 1865-1893) -/
def pyDel {α} (l : List α) (i : Int) : List α :=
  match pyPos l.length i with
  | some k => l.eraseIdx k
  | none => l

/-- `lst[i] = x` for a valid Python index (Python's list; used in itree_main.py 1581-1632) -/
def pySet {α} (l : List α) (i : Int) (x : α) : List α :=
  match pyPos l.length i with
  | some k => l.set k x
  | none => l

/-- `lst.index(x, start)` with `==` (identity counts as equal) on items (Python's list; used in itree_main.py 421-441, 1877-1889) -/
def pyIndexFrom (eq : Id → Id → Bool) (l : List Id) (x : Id) (start : Nat) : Option Nat :=
  (List.range' start (l.length - start)).find? fun j => match l[j]? with | some y => y == x || eq y x | none => false

/-- the identity search loop (itree_main.py 1882-1888); the first argument counts the rounds of `for _ in family` -/
def identitySearch (eq : Id → Id → Bool) : Nat → List Id → Id → Nat → Except Err Nat
  | 0, _, _, _ => .error .runtime                    -- f_idx unbound
  | n + 1, l, x, start =>
    match pyIndexFrom eq l x start with
    | none => .error .value
    | some i => if l[i]? = some x then .ok i else identitySearch eq n l x (i + 1)

/-- position of the deleted item in its family (itree_main.py 1877-1889) -/
def famPos (eq : Id → Id → Bool) (fam : List Id) (x : Id) (cache : Int) : Except Err Int :=
  let search : Except Err Int := match identitySearch eq fam.length fam x 0 with
    | .ok i => .ok (i : Int)
    | .error e => .error e
  if cache < fam.length then
    match pyGet fam cache with
    | none => .error .index
    | some y => if y = x then .ok cache else search
  else search

/-- removal of `x` from its family after it was popped from the item list (itree_main.py 1865-1893, without the link branch) -/
def dropFromFamily (h : Heap) (p x : Id) : Res Id :=
  let t := h.tag x
  let F := (h.boundFams p).getD []
  match F.get? t with
  | none => (h, .error .key)
  | some fam =>
    if fam.length = 1 then ((h.setFams p (F.del t)).setParent x none, .ok x)
    else
      match (h.node x).parent with
      | none => (h, .error .type)
      | some r =>
        match famPos h.eqItem fam x r.famC with
        | .error e => (h, .error e)
        | .ok i => ((h.setFams p (F.set t (pyDel fam i))).setParent x none, .ok x)

/-- the covered linked item of a local item: `del_item._link._link_item` (itree_main.py 1868-1875) -/
def coverOf (h : Heap) (x : Id) : Option Id :=
  match (h.node x).link with | some l => l.cover | none => none

/-- deleting a local item that covers a linked item brings the linked item back (itree_main.py 1868-1875) -/
def uncover (h : Heap) (p x y : Id) (k : Int) : Res Id :=
  let r := h.tagIdx x
  match r.2 with
  | .error e => (r.1, .error e)
  | .ok .none => (r.1, .error .type)
  | .ok (.bare _) => (r.1, .error .type)             -- 'int' object is not subscriptable
  | .ok (.pair t i) =>
    let h1 := r.1.setItems p (pyInsert (r.1.kids p) k y)
    let F := (h1.boundFams p).getD []
    let fam := (F.get? t).getD []
    let h2 := h1.setFams p (F.set t (pySet fam i y))
    ((h2.setParent y (some ⟨p, k, i, false⟩)).setParent x none, .ok x)

/-- the protection check of `__delitem__` (itree_main.py 1851-1856): error, or the local flag `is_link_root` -/
def guardDel (h : Heap) (p : Id) : Except Err Bool :=
  if h.isProtected p then
    if !h.isLinkRoot p then .error .permission else .ok (h.linkLoaded p)
  else .ok false

/-- is the item linked or a placeholder (itree_main.py 1862-1866) -/
def isForeign (h : Heap) (x : Id) : Bool := (h.flags x).has (Flags.linked ||| Flags.placeholder)

/-- `__delitem__` with an int (itree_main.py 1831-1893, 1936) -/
def delInt (h : Heap) (p : Id) (k : Int) : Res Id :=
  match guardDel h p with
  | .error e => (h, .error e)
  | .ok lr =>
    if h.kids p = [] then (h, .error .key) else
    match pyPos (h.kids p).length k with
    | none => (h, .error .index)
    | some pos =>
      match (h.kids p)[pos]? with
      | none => (h, .error .index)
      | some x =>
        if lr && isForeign h x then (h, .error .permission) else
        let h1 := h.setItems p ((h.kids p).eraseIdx pos)
        match coverOf h x with
        | some y => if ((h1.boundFams p).getD []).get? (h1.tag x) = none then (h1, .error .key) else uncover h1 p x y k
        | none => dropFromFamily h1 p x

/-- delete one item by `self.__delitem__(item.idx)` (itree_main.py 1933-1935, 2019, 2038) -/
def delByItem (h : Heap) (p x : Id) : Res Id :=
  let r := h.idx x
  match r.2 with
  | .error e => (r.1, .error e)
  | .ok none => (r.1, .error .type)
  | .ok (some i) => delInt r.1 p i

/-- `[self.__delitem__(item.idx) for item in items]` (itree_main.py 1895-1936) -/
def delMany (h : Heap) (p : Id) : List Id → Res (List Id)
  | [] => (h, .ok [])
  | x :: xs =>
    let r := delByItem h p x
    match r.2 with
    | .error e => (r.1, .error e)
    | .ok y =>
      let q := delMany r.1 p xs
      match q.2 with
      | .error e => (q.1, .error e)
      | .ok ys => (q.1, .ok (y :: ys))

/-- `__delitem__` with a slice (itree_main.py 1894-1929, 1936), without the link branches: the loop over the deleted items returns in its
first round, so only the first item is taken out of its family, and families are never removed from the dict. -/
def delSlice (h : Heap) (p : Id) (s : PySlice) : Res (List Id) :=
  match guardDel h p with
  | .error e => (h, .error e)
  | .ok lr =>
    if h.kids p = [] then (h, .error .key) else
    match s.indices (h.kids p).length with
    | none => (h, .error .value)
    | some ix =>
      let gone := ix.filterMap fun i => (h.kids p)[i.toNat]?
      if lr && gone.any (isForeign h) then (h, .error .permission) else
      let h1 := h.setItems p ((h.kids p).filter fun x => !gone.contains x)
      match s.start, s.stop with
      | some a, some b =>
        if a < b then
          match gone with
          | [] => (h1, .error .key)
          | x :: _ =>
            let t := h1.tag x
            let F := (h1.boundFams p).getD []
            match F.get? t with
            | none => (h1, .error .key)
            | some fam =>
              if fam.length = 1 then (h1.setParent x none, .ok gone)
              else
                match (h1.node x).parent with
                | none => (h1, .error .type)
                | some r =>
                  match famPos h1.eqItem fam x r.famC with
                  | .error e => (h1, .error e)
                  | .ok i => ((h1.setFams p (F.set t (pyDel fam i))).setParent x none, .ok gone)
        else (h1, .error .key)
      | _, _ => (h1, .error .type)                   -- range(None, ...)

/-- `__delitem__` / `pop` (itree_main.py 1831-1936, 1978-1998) -/
def delItem (h : Heap) (p : Id) (tg : Target) : Res (List Id) :=
  match tg with
  | .int k => let r := delInt h p k; (r.1, r.2.map fun x => [x])
  | .slice s => delSlice h p s
  | tg =>
    match guardDel h p with
    | .error e => (h, .error e)
    | .ok _ =>
      if h.kids p = [] then (h, .error .key) else
      match getItem h p tg with
      | .error e => (h, .error e)
      | .ok (.one x) => let r := delByItem h p x; (r.1, r.2.map fun x => [x])
      | .ok (.many l) => delMany h p l

/-- `remove` with a single item (itree_main.py 2017-2021) -/
def remove (h : Heap) (p x : Id) : Res Id :=
  if h.par x = some p then delByItem h p x else (h, .error .value)

/-! ### setitem, move, rename -/

/-- the new item of `__setitem__` (itree_main.py 1561-1572) -/
def prepSet (h : Heap) (p : Id) (a : Arg) : Res Id :=
  match a with
  | .item x =>
    match (h.node x).parent with
    | none => (h, .ok x)
    | some r =>
      if h.eqItem r.pid p then let c := copyItem h x; (c.1, .ok c.2)
      else (h, .error .recursion)
  | .val v =>
    let r := h.alloc { tag := .noTag, value := v }
    (r.1, .ok r.2)

/-- replacement of one child by index (itree_main.py 1601-1632) -/
def replaceChild (h : Heap) (p old x : Id) : Res Id :=
  let r1 := h.idx old
  match r1.2 with
  | .error e => (r1.1, .error e)
  | .ok none => (r1.1, .error .type)
  | .ok (some absIdx) =>
    let r2 := r1.1.tagIdx old
    match r2.2 with
    | .error e => (r2.1, .error e)
    | .ok .none => (r2.1, .error .type)
    | .ok (.bare _) => (r2.1, .error .type)          -- cannot unpack int
    | .ok (.pair oTag oIdx) =>
      let h1 := r2.1.setParent old none
      let h2 := h1.setItems p (pySet (h1.kids p) absIdx x)
      let vTag := h2.tag x
      let F := (h2.boundFams p).getD []
      if vTag = oTag then
        let fam := (F.get? vTag).getD []
        let h3 := h2.setFams p (F.set vTag (pySet fam oIdx x))
        (h3.setParent x (some ⟨p, absIdx, oIdx, false⟩), .ok x)
      else
        let F1 := F.set oTag (pyDel ((F.get? oTag).getD []) oIdx)
        let h3 := h2.setFams p F1
        match F1.get? vTag with
        | none =>
          ((h3.setFams p (F1.set vTag [x])).setParent x (some ⟨p, absIdx, 0, false⟩), .ok x)
        | some fam =>
          let q := famInsIdx h3 fam absIdx
          match q.2 with
          | .ok i => ((q.1.setFams p (F1.set vTag (pyInsert fam i x))).setParent x (some ⟨p, absIdx, i, false⟩), .ok x)
          | .error .key => ((q.1.setFams p (F1.set vTag [x])).setParent x (some ⟨p, absIdx, 0, false⟩), .ok x)
          | .error .index => ((q.1.setFams p (F1.set vTag [x])).setParent x (some ⟨p, absIdx, 0, false⟩), .ok x)
          | .error e => (q.1, .error e)

/-- `for i in reversed(family[1:]): sl.__delitem__(i.idx)` (itree_main.py 1593-1594), list given reversed -/
def dropItems (h : Heap) (p : Id) : List Id → Res Unit
  | [] => (h, .ok ())
  | x :: xs =>
    let r := h.idx x
    match r.2 with
    | .error e => (r.1, .error e)
    | .ok none => (r.1, .error .type)
    | .ok (some i) => dropItems (r.1.setItems p (pyDel (r.1.kids p) i)) p xs

/-- replacement of a whole family by one item (itree_main.py 1581-1598): the old members keep their parent reference and the new item gets a
tuple as parent reference -/
def replaceFamily (h : Heap) (p x : Id) : Res Id :=
  let t := h.tag x
  match ((h.boundFams p).getD []).get? t with
  | none => append h p (.item x)
  | some fam =>
    if fam.any (fun i => (coverOf h i).isSome) then (h, .error .attribute) else
    match fam with
    | [] => (h, .error .index)
    | f :: rest =>
      let r := h.idx f
      match r.2 with
      | .error e => (r.1, .error e)
      | .ok none => (r.1, .error .type)
      | .ok (some k) =>
        let q := dropItems r.1 p rest.reverse
        match q.2 with
        | .error e => (q.1, .error e)
        | .ok () =>
          let h1 := q.1.setItems p (pySet (q.1.kids p) k x)
          let h2 := h1.setFams p (((h1.node p).fams.getD []).set t [x])
          (h2.setParent x (some ⟨p, k, 0, true⟩), .ok x)

/-- `__setitem__` (itree_main.py 1488-1632) for a single new item (tuples/lists of items are not modelled) -/
def setItem (h : Heap) (p : Id) (tg : Target) (a : Arg) : Res Id :=
  match guardPlace h p a with
  | some e => (h, .error e)
  | none =>
    match getItem h p tg with
    | .error e => (h, .error e)
    | .ok old =>
      if (match old, a with | .one o, .item x => o == x | _, _ => false) then
        (h, .ok (match a with | .item x => x | .val _ => 0))
      else
      let r := prepSet h p a
      match r.2 with
      | .error e => (r.1, .error e)
      | .ok x =>
        let h1 := r.1
        match tg with
        | .dots =>
          if (((h1.node p).fams.getD []).get? (h1.tag x)).isSome then
            let q := delItem h1 p (Target.ofTag (h1.tag x))
            match q.2 with
            | .error e => (q.1, .error e)
            | .ok _ => append q.1 p (.item x)
          else append h1 p (.item x)
        | tg =>
          if tg.asTag = some (h1.tag x) then replaceFamily h1 p x
          else
            match old with
            | .many _ => (h1, .error .lookup)
            | .one o => replaceChild h1 p o x

/-- `move` (itree_main.py 1634-1677); `none` is the target `None` -/
def move (h : Heap) (x : Id) (tg : Option Target) : Res Id :=
  match (h.node x).parent with
  | none => (h, .error .lookup)
  | some r =>
    let p := r.pid
    let bad : Bool := h.isProtected p &&
      (if h.isLinkRoot p then h.linkLoaded p && (h.linkTags p).contains (h.tag x) else true)
    if bad then (h, .error .permission) else
    match tg with
    | none =>
      let q := delByItem h p x
      match q.2 with
      | .error e => (q.1, .error e)
      | .ok y => append q.1 p (.item y)
    | some (.int k) =>
      let q := delByItem h p x
      match q.2 with
      | .error e => (q.1, .error e)
      | .ok y => insert q.1 p (some (.int k)) (.item y)
    | some tg =>
      match getItem h p tg with
      | .error e => (h, .error e)
      | .ok (.many _) => (h, .error .lookup)
      | .ok (.one y) =>
        let i := h.idx y
        match i.2 with
        | .error e => (i.1, .error e)
        | .ok none => (i.1, .error .type)
        | .ok (some k) =>
          let q := delByItem i.1 p x
          match q.2 with
          | .error e => (q.1, .error e)
          | .ok z => insert q.1 p (some (.int k)) (.item z)

/-- `family.remove(x)`: removes the first member that is `x` or `== x` (Python's list; used in itree_main.py 1679-1731) -/
def pyRemove (eq : Id → Id → Bool) (x : Id) : List Id → Option (List Id)
  | [] => none
  | y :: ys => if y == x || eq y x then some ys else (pyRemove eq x ys).map (y :: ·)

/-- `rename` (itree_main.py 1679-1731) -/
def rename (h : Heap) (x : Id) (g : Tag) : Res Unit :=
  match (h.node x).parent with
  | none => (h.modify x fun n => { n with tag := g }, .ok ())
  | some r =>
    let p := r.pid
    let bad : Bool := h.isProtected p &&
      (if h.isLinkRoot p then h.linkLoaded p && ((h.linkTags p).contains g || isForeign h x) else true)
    if bad then (h, .error .permission) else
    match (h.node p).fams with
    | none => (h, .error .attribute)
    | some F =>
      match F.get? (h.tag x) with
      | none => (h, .error .key)
      | some fam =>
        let F1? := if fam.length = 1 then some (F.del (h.tag x))
          else (pyRemove h.eqItem x fam).map fun l => F.set (h.tag x) l
        match F1? with
        | none => (h, .error .value)
        | some F1 =>
          let h1 := (h.setFams p F1).modify x fun n => { n with tag := g }
          match F1.get? g with
          | none =>
            let h2 := h1.setFams p (F1.set g [x])
            if r.frozen then (h2, .error .type)
            else (h2.setParent x (some { r with famC := 0 }), .ok ())
          | some nf =>
            let i := h1.idx x
            match i.2 with
            | .error e => (i.1, .error e)
            | .ok none => (i.1, .error .type)
            | .ok (some k) =>
              let q := famInsIdx i.1 nf k
              match q.2 with
              | .error e => (q.1, .error e)
              | .ok j =>
                let h2 := q.1.setFams p (F1.set g (pyInsert nf j x))
                match (h2.node x).parent with
                | none => (h2, .error .type)
                | some r' =>
                  if r'.frozen then (h2, .error .type)
                  else (h2.setParent x (some { r' with famC := j }), .ok ())

/-! ### reverse, rotate, sort, clear -/

/-- the outcome of the check shared by `reverse`, `rotate`, `sort` (itree_main.py 1741-1745, 1766-1769, 1819-1822): an error, a silent
no-op (unloaded link root), or go on -/
def guardReorder (h : Heap) (p : Id) : Except Err Bool :=
  if h.isProtected p then
    if !h.isLinkRoot p || h.linkLoaded p then .error .permission else .ok false
  else .ok true

/-- `reverse` (itree_main.py 1733-1748); an item that never had children has no `_families` -/
def reverse (h : Heap) (p : Id) : Res Unit :=
  match guardReorder h p with
  | .error e => (h, .error e)
  | .ok false => (h, .ok ())
  | .ok true =>
    let h1 := h.setItems p (h.kids p).reverse
    match (h.node p).fams with
    | none => (h1, .error .attribute)
    | some F => (h1.setFams p (F.map fun e => (e.1, e.2.reverse)), .ok ())

/-- `[self.pop(k) for _ in range(n)]` (itree_main.py 1750-1777) -/
def popMany (h : Heap) (p : Id) (k : Int) : Nat → Res (List Id)
  | 0 => (h, .ok [])
  | n + 1 =>
    let r := delInt h p k
    match r.2 with
    | .error e => (r.1, .error e)
    | .ok x =>
      let q := popMany r.1 p k n
      match q.2 with
      | .error e => (q.1, .error e)
      | .ok xs => (q.1, .ok (x :: xs))

/-- `rotate` (itree_main.py 1750-1777) -/
def rotate (h : Heap) (p : Id) (n : Int) : Res Unit :=
  match guardReorder h p with
  | .error e => (h, .error e)
  | .ok false => (h, .ok ())
  | .ok true =>
    if 0 < n then
      let r := popMany h p (-1) n.toNat
      match r.2 with
      | .error e => (r.1, .error e)
      | .ok xs => extendLeft r.1 p (xs.reverse.map Arg.item)
    else if n < 0 then
      let r := popMany h p 0 (-n).toNat
      match r.2 with
      | .error e => (r.1, .error e)
      | .ok xs => extend r.1 p (xs.map Arg.item)
    else (h, .ok ())

/-- `list.sort` is a stable sort; the key function is given as an evaluated table.  With `key=None` items are compared with
`__lt__`, i.e. by their number of children (itree_main.py 2482-2488). -/
def sortKeyed (key : Id → Int) (rev : Bool) (l : List Id) : List Id :=
  l.mergeSort fun a b => if rev then decide (key b ≤ key a) else decide (key a ≤ key b)

/-- `sort` (itree_main.py 1779-1828) -/
def sort (h : Heap) (p : Id) (key : Id → Int) (rev : Bool) : Res Unit :=
  match guardReorder h p with
  | .error e => (h, .error e)
  | .ok false => (h, .ok ())
  | .ok true =>
    let l := sortKeyed key rev (h.kids p)
    let h1 := h.modify p fun n => { n with items := [], fams := some [] }
    extend h1 p (l.map Arg.item)

/-- the value `_unset_flags` stores (itree_private.py 198-199): `s & (~s & flags)` -/
def unsetFlags (s f : Flags) : Flags := s &&& (~~~s &&& f)

/-- `clear` (itree_main.py 1938-1976) with `local_only=False`.  On a link root `_link._loaded = False` is executed, and
`is_loaded` is `_loaded is not None`. -/
def clear (h : Heap) (p : Id) (keepValue : Bool) : Res Unit :=
  if h.isProtected p && !h.isLinkRoot p then (h, .error .permission) else
  let h1 := if h.isLinkRoot p then h.modify p fun n => { n with link := n.link.map fun l => { l with loaded := true } } else h
  if (h1.flags p).has Flags.linked then (h1, .error .permission) else
  let h2 := h1.modify p fun n => { n with
    flags := unsetFlags n.flags Flags.loadLinks
    items := []
    stale := n.stale.or n.fams
    fams := some [] }
  (if keepValue then h2 else h2.modify p fun n => { n with value := .noValue }, .ok ())

end ITree
