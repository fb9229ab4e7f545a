import Verif.Model.Links
import Verif.Model.Query
/-
Linked items in the heap: `make_local` (itree_main.py 3371-3393) with `_convert_to_local_item` (itree_private.py 717-760), and `load_links` (itree_main.py 3226-3369) on one link root.
-/
namespace ITree

/-- enough rounds for the loop of `_convert_to_linked_item` and `_convert_to_local_item` over the items below `T` (that more rounds change nothing is `C46_items_partial`) (itree_private.py 634-673, 718-760) -/
def convFuel (T : Tree) : Nat := 3 * (Tree.preL T.kids).length + 1

/-- the children made by the loop itree_private.py 743-759 (word for word the loop of `_convert_to_linked_item`: every clone below the top gets the linked flag); without `copy_subtree` there are none -/
def localKids (T : Tree) (sub : Bool) : List Tree :=
  match T.kids with
  | [] => []
  | k :: ks => if sub then
      match convRun (convFuel T) ⟨[(T, [])], [.it (k :: ks)]⟩ with
      | Option.none => []
      | some s => match assemble s.items [] with | [U] => U.kids | _ => []
    else []

/-- the top object of `_convert_to_local_item` (itree_private.py 735-738): the flags without the linked flag, covering the linked item `x`.  Value copies are equal values. -/
def localNode (h : Heap) (x : Id) : Node :=
  { tag := h.tag x, value := (h.node x).value, flags := h.flags x &&& ~~~ Flags.linked, link := some { cover := some x } }

/-- `_convert_to_local_item(x, copy_subtree)` of a linked item (itree_private.py 717-760).  Not modelled: that cloned link roots with LOAD_LINKS load their links. -/
def convertLocal (h : Heap) (x : Id) (sub : Bool) : Heap × Id :=
  let r := h.alloc (localNode h x)
  (buildKids r.1 r.2 (localKids (h.tree x) sub), r.2)

/-- putting the local item `y` in the place of `x` among the children of `p` (itree_main.py 3386-3393): position `k`, family `t`, family position `m` -/
def putLocal (h : Heap) (p y : Id) (k : Int) (t : Tag) (m : Int) : Res Id :=
  let h1 := h.setItems p (pySet (h.kids p) k y)
  let F := (h1.boundFams p).getD []
  match F.get? t with
  | Option.none => (h1, .error .key)
  | some fam => ((h1.setFams p (F.set t (pySet fam m y))).setParent y (some ⟨p, k, m, false⟩), .ok y)

/-- `x.make_local(copy_subtree)` (itree_main.py 3371-3393).  `tag, f_idx = self.tag_idx` raises TypeError when `tag_idx` delivers a bare number. -/
def makeLocal (h : Heap) (x : Id) (sub : Bool) : Res Id :=
  match (h.node x).parent with
  | Option.none => (h, .error .syntaxErr)
  | some r =>
    if !(h.flags x).has Flags.linked then (h, .error .syntaxErr)
    else if !h.isLinkRoot r.pid then (h, .error .syntaxErr)
    else
      let c := convertLocal h x sub
      let a := c.1.idx x
      match a.2 with
      | .error e => (a.1, .error e)
      | .ok Option.none => (a.1, .error .type)
      | .ok (some k) =>
        let g := a.1.tagIdx x
        match g.2 with
        | .error e => (g.1, .error e)
        | .ok .none => (g.1, .error .type)
        | .ok (.bare _) => (g.1, .error .type)
        | .ok (.pair t m) => putLocal g.1 r.pid c.2 k t m

/-! ### load_links on a link root -/

/-- What `load_links` asks the iTLink object for (itree_helpers.py 158-194): `find h p` is `get_target_tree(p)`, which may change the heap (a file is loaded) and may raise; `changed h p` is
`is_file_updated()`, which may raise as well.  Both are arbitrary here; Model/FindLink has the functions of the code. -/
structure LinkEnv where
  find : Heap → Id → Res Id
  changed : Heap → Id → Except Err Bool

/-- `_iter_locals_add_placeholders(p)` (itree_private.py 762-777): the children with their keys; the family position is written into the cache of every child.  `tag_dict` has all tags of the children. -/
def numberKids (h : Heap) (p : Id) : Res (List (LKey × Id)) := itemsLoop (fun _ => true) h (h.kids p) ((h.kids p).map fun c => (h.tag c, 0))

/-- `local_items[k] = i` in an ordered dict (itree_main.py 3291-3297) -/
def dictPut {α : Type} (k : LKey) (v : Option α) : List (LEntry α) → List (LEntry α)
  | [] => [(k, v)]
  | (k', v') :: r => if k' = k then (k, v) :: r else (k', v') :: dictPut k v r

/-- The entry of a child that is a placeholder itself (`local_items[(i._tag, i._value)] = i`, itree_main.py 3293-3295).  Simplification: a value that is no natural number gives no entry (it can not be
the key of a child of the source). -/
def phEntry (h : Heap) (x : Id) : List (LEntry Id) :=
  match (h.node x).value with
  | .int n => if 0 ≤ n then [((h.tag x, n.toNat), Option.none)] else []
  | _ => []

/-- the entry `local_items` gets for a yielded item (itree_main.py 3292-3297) -/
def entryOf (h : Heap) (e : LEntry Id) : List (LEntry Id) :=
  match e.2 with
  | Option.none => [e]
  | some x => if (h.flags x).has Flags.placeholder then phEntry h x else [e]

/-- the dict `local_items` (itree_main.py 3291-3297) -/
def localItems (h : Heap) (l : List (LKey × Id)) : List (LEntry Id) :=
  ((localEntries false (l.map fun e => (e.1, (h.flags e.2).has Flags.linked, e.2))).flatMap (entryOf h)).foldl (fun d e => dictPut e.1 e.2 d) []

/-- `sl.clear(); self._families = {}` (itree_main.py 3300-3301): the children keep their parent, the quick access methods the old dict -/
def dropKids (h : Heap) (p : Id) : Heap := h.modify p fun n => { n with items := [], stale := n.stale.or n.fams, fams := some [] }

/-- `new_item` for the child `c` of the source (itree_main.py 3310-3320); `load` is the recursive call.  TypeError and RecursionError become RecursionError. -/
def linkedItem (load : Heap → Id → Res Bool) (h : Heap) (c : Id) : Res Id :=
  if h.isLinkRoot c then
    let r := load h c
    match r.2 with
    | .error .type => (r.1, .error .recursion)
    | .error e => (r.1, .error e)
    | .ok _ =>
      let q := copyItem r.1 c
      (q.1.modify q.2 fun n => { n with flags := n.flags ||| Flags.linked }, .ok q.2)
  else if (h.flags c).has Flags.linked then (h, .ok c)
  else match convert (convFuel (h.tree c)) (h.tree c) with
    | some [U] => let b := build h U; (b.1, .ok b.2)
    | _ => (h, .error .runtime)

/-- `append_item_to_tree(self, i)` for one element of `append_list`, after `i._link = iTLink(link_item=new_item)` if it covers the new item (itree_main.py 3328-3346).  A local item that is a link root
loses its own link here. -/
def putOut (new p : Id) (h : Heap) : LOut Id → Heap
  | .new _ => appendItem h p new
  | .old x _ c => appendItem (if c then h.modify x fun n => { n with link := some { cover := some new } } else h) p x

/-- the loop over the children of the source (itree_main.py 3308-3349): children still to come, `local_items`, `keys`.  `key[0]` is a TypeError if `tag_idx` is a bare number. -/
def loadLoop (load : Heap → Id → Res Bool) (p s : Id) : Heap → List Id → List (LEntry Id) → List LKey → Res (List (LEntry Id) × List LKey)
  | h, [], E, ks => (h, .ok (E, ks))
  | h, c :: cs, E, ks =>
    let n := linkedItem load h c
    match n.2 with
    | .error e => (n.1, .error e)
    | .ok x =>
      let g := n.1.tagIdx c
      match g.2 with
      | .error e => (g.1, .error e)
      | .ok .none => (g.1, .error .type)
      | .ok (.bare _) => (g.1, .error .type)
      | .ok (.pair t m) =>
        let key : LKey := (t, m.toNat)
        if key ∈ E.map (·.1) then
          let al := collect (fun k => containsTarget g.1 s (.key k.1 (.int k.2))) key E []
          loadLoop load p s ((al.map (·.2)).foldl (putOut x p) g.1) cs (removeKeys (al.map (·.1)) E) (ks ++ [key])
        else loadLoop load p s (appendItem g.1 p x) cs E (ks ++ [key])

/-- taking over the children of the source `s` (itree_main.py 3289-3357).  Simplifications: the children of `s` are read once, after the children of `p` were dropped; coupled objects are in Model/Coupled. -/
def takeOver (load : Heap → Id → Res Bool) (h : Heap) (p s : Id) : Res Bool :=
  let r := numberKids h p
  match r.2 with
  | .error e => (r.1, .error e)
  | .ok l =>
    let E := localItems r.1 l
    let h1 := dropKids r.1 p
    let q := loadLoop load p s h1 (h1.kids s) E []
    match q.2 with
    | .error e => (q.1, .error e)
    | .ok (E', ks) =>
      let h2 := (E'.filterMap (·.2)).foldl (fun h x => appendItem h p x) q.1
      (h2.modify p fun n => { n with link := n.link.map fun l => { l with tags := (ks.map (·.1)).eraseDups, keys := ks, loaded := true } }, .ok true)

/-- the decision whether to load again (itree_main.py 3261-3282), `lk` is the iTLink object.  Simplification: `keys()` is read completely. -/
def loadActive (env : LinkEnv) (h : Heap) (p : Id) (lk : LinkSt) (force : Bool) : Res Bool :=
  if force || !lk.loaded then (h, .ok true)
  else match env.changed h p with
  | .error e => (h, .error e)
  | .ok true => (h, .ok true)
  | .ok false =>
    if lk.file.isSome then (h, .ok false)
    else
      let r := env.find h p
      match r.2 with
      | .error _ => (r.1, .ok true)
      | .ok s =>
        if (r.1.kids s).length ≠ lk.keys.length then (r.1, .ok true)
        else if r.1.kids s = [] then (r.1, .ok false)
        else
          let q := keysOf r.1 s (fun _ => true)
          match q.2 with
          | .error _ => (q.1, .ok true)
          | .ok ks => (q.1, .ok (decide (ks ≠ lk.keys)))

/-- `p.load_links(force)` on a link root `p` (itree_main.py 3226-3369, `delete_invalid_items` false); the number counts the nested calls still allowed, 201 at the start (3250-3252).  The call on an item
that is no link root is `callLoadLinks` in Model/FindLink. -/
def loadLinks (env : LinkEnv) (force : Bool) : Nat → Heap → Id → Res Bool
  | 0, h, _ => (h, .error .recursion)
  | n + 1, h, p =>
    match (h.node p).link with
    | Option.none => (h, .ok false)
    | some lk =>
      let a := loadActive env h p lk force
      match a.2 with
      | .error e => (a.1, .error e)
      | .ok false => (a.1, .ok false)
      | .ok true =>
        let f := env.find a.1 p
        match f.2 with
        | .error e => (f.1, .error e)
        | .ok s => takeOver (loadLinks env force n) f.1 p s

end ITree
