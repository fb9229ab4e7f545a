import Verif.Model.LinksHeap
import Verif.Model.Getter
/-
How a link finds its source: `iTLink.get_target_tree` and `is_file_updated` (itree_helpers.py 158-194); `load_links` called on any item (itree_main.py 3226-3369).
-/
namespace ITree

/-- What a link to a file needs (itree_helpers.py 160-168, 196-202): `load h f` is `load(f, load_links=True)`, arbitrary; `sum f` is the checksum of the file, none if there is no such file.
`source_dir` is never given by `load_links`. -/
structure FileEnv where
  load : Heap → String → Res Id
  sum : String → Option Nat

/-- writing attributes of the iTLink object of `p` (itree_helpers.py 158-250) -/
def Heap.setLink (h : Heap) (p : Id) (f : LinkSt → LinkSt) : Heap := h.modify p fun n => { n with link := n.link.map f }

/-- the last lines of `get_target_tree` (itree_helpers.py 176-179): only an item is accepted, no list -/
def onlyItem : Except Err GetOut → Except Err Id
  | .ok (.one x) => .ok x
  | .ok (.list _) => .error .syntaxErr
  | .error e => .error e

/-- `get_target_tree` from the tree `r` on (itree_helpers.py 169-179).  If the first element equals the tag of `r` it is dropped, for good: `Tag(x) not in result_tree` is always true (`Tag` objects are not hashable, the
exception is suppressed in `__contains__`). -/
def targetIn (h : Heap) (p : Id) (path : List Tag) (r : Id) : Res Id :=
  match path with
  | [] => (h, .ok r)
  | t :: ts =>
    if t = h.tag r then
      let g := h.setLink p fun l => { l with path := ts }
      match ts with
      | [] => (g, .ok r)
      | u :: us => (g, onlyItem (getPath g r (Target.ofTag u) (us.map Target.ofTag)))
    else (h, onlyItem (getPath h r (Target.ofTag t) (ts.map Target.ofTag)))

/-- the file a link refers to, if any: None and the empty name mean the own tree (itree_helpers.py 159) -/
def LinkSt.theFile (l : LinkSt) : Option String :=
  match l.file with
  | Option.none => Option.none
  | some f => if f = "" then Option.none else some f

/-- `iTLink.get_target_tree(p)` of the link of `p` (itree_helpers.py 158-179); for an item without link the attribute access fails -/
def getTarget (fe : FileEnv) (h : Heap) (p : Id) : Res Id :=
  match (h.node p).link with
  | Option.none => (h, .error .attribute)
  | some lk =>
    match lk.theFile with
    | Option.none => targetIn h p lk.path (h.root p)
    | some f =>
      match fe.sum f with
      | Option.none => (h, .error .file)
      | some c =>
        let r := fe.load h f
        match r.2 with
        | .error e => (r.1, .error e)
        | .ok y => targetIn (r.1.setLink p fun l => { l with crc := some c }) p lk.path y

/-- `iTLink.is_file_updated()` of the link of `p` (itree_helpers.py 181-194): as written, "the checksum is the same" -/
def fileUpdated (fe : FileEnv) (h : Heap) (p : Id) : Except Err Bool :=
  match (h.node p).link with
  | Option.none => .error .attribute
  | some lk =>
    match lk.theFile with
    | Option.none => .ok false
    | some f =>
      match lk.crc with
      | Option.none => .ok true
      | some c =>
        match fe.sum f with
        | Option.none => .error .file
        | some c' => .ok (decide (c = c'))

/-- the link functions of the code (itree_helpers.py 158-194) -/
def linkEnv (fe : FileEnv) : LinkEnv := { find := getTarget fe, changed := fileUpdated fe }

/-- The loop `for i in filter(is_link_root, self.deep): i.load_links(…)` (itree_main.py 3364-3369) over the live deep iterator (itree_indepth.py 559-577): a stack of list iterators, each a list of children and the
next position in it.  An item is yielded – and loaded, if it is a link root – before the iterator looks whether it has children.  `n` is the number of nested calls allowed in the calls, the first number limits the rounds. -/
def loadBelow (env : LinkEnv) (force : Bool) (n : Nat) : Nat → Heap → List (Id × Nat) → Bool → Option (Res Bool)
  | 0, _, _, _ => Option.none
  | _ + 1, h, [], b => some (h, .ok b)
  | k + 1, h, (c, i) :: st, b =>
    match (h.kids c)[i]? with
    | Option.none => loadBelow env force n k h st b
    | some x =>
      let r := if h.isLinkRoot x then loadLinks env force n h x else (h, .ok false)
      match r.2 with
      | .error e => some (r.1, .error e)
      | .ok l => loadBelow env force n k r.1 (if r.1.kids x = [] then (c, i + 1) :: st else (x, 0) :: (c, i + 1) :: st) (b || l)

/-- `p.load_links(force)` for any item (itree_main.py 3226-3369, `delete_invalid_items` false); `n` nested calls are allowed, 201 at the start -/
def callLoadLinks (env : LinkEnv) (force : Bool) (n : Nat) (k : Nat) (h : Heap) (p : Id) : Option (Res Bool) :=
  match n with
  | 0 => some (h, .error .recursion)
  | m + 1 => if h.isLinkRoot p then some (loadLinks env force (m + 1) h p) else loadBelow env force m k h [(p, 0)] false

end ITree
