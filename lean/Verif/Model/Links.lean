import Verif.Model.Mutate
/-
Model of loading links (`load_links`, itree_main.py 3226-3369; `_convert_to_linked_item`, `_iter_locals_add_placeholders`, itree_private.py 633-673, 762-777) on snapshots of the source tree and of
the children of the link root.  Not modelled here: how the target is found (Model/FindLink), coupled objects (Model/Coupled), link roots among the source's children
(Model/LinksHeap: they are loaded first and copied).  In a converted tree the identity of an item is the identity of the source item it was made from.
-/
namespace ITree

/-- `new._flags | linked_flag` on the clone of an item (itree_private.py 646-648, 658-659, 667-668); link arguments are copied by `_get_args_skip_subtree` -/
def linkClone (T : Tree) (kids : List Tree) : Tree := .node T.id T.tag T.value (T.flags ||| Flags.linked) (copyLink T) kids

/-- an entry of the list `iterators`: rest of an item iterator or `NONE_TUPLE` (itree_private.py 634-673) -/
inductive LFr where
  | it (l : List Tree)
  | none

/-- The state of the loop: `items` (last element first) as pairs (item, its children so far without the item above it in the list), and `iterators` (last first). (itree_private.py 634-673) -/
structure ConvSt where
  items : List (Tree × List Tree)
  its : List LFr

/-- appending a child to `items[-1]` (itree_private.py 634-673) -/
def addKid (T : Tree) : List (Tree × List Tree) → List (Tree × List Tree)
  | [] => []
  | (p, ks) :: r => (p, ks ++ [T]) :: r

/-- one round of the loop itree_private.py 654-672: the clone of an item with children is appended and becomes `items[-1]`; when the `None` after its children is met only `iterators`
is shortened, not `items` -/
def convStep (s : ConvSt) : Option ConvSt :=
  match s.its with
  | [] => Option.none
  | .it [] :: st => some { s with its := st }
  | .none :: st => some { s with its := st }
  | .it (x :: xs) :: st =>
    match x.kids with
    | [] => some ⟨addKid (linkClone x []) s.items, .it xs :: st⟩
    | k :: ks => some ⟨(x, []) :: s.items, .it (k :: ks) :: .none :: .it xs :: st⟩

/-- at most `n` rounds; `none` if the loop has not ended then (itree_private.py 634-673) -/
def convRun : Nat → ConvSt → Option ConvSt
  | 0, s => match s.its with | [] => some s | _ => Option.none
  | n + 1, s => match convStep s with
    | Option.none => some s
    | some s' => convRun n s'

/-- the tree that was built: every item of `items` is the last child of the one before (itree_private.py 634-673) -/
def assemble : List (Tree × List Tree) → List Tree → List Tree
  | [], acc => acc
  | (p, ks) :: r, acc => assemble r [linkClone p (ks ++ acc)]

/-- `_convert_to_linked_item(root_item)` (itree_private.py 633-673); `none`: the loop has not ended within n rounds -/
def convert (n : Nat) (T : Tree) : Option (List Tree) :=
  if T.flags.has Flags.linked then some [T]
  else match T.kids with
    | [] => some [linkClone T []]
    | k :: ks => (convRun n ⟨[(T, [])], [.it (k :: ks)]⟩).map fun s => assemble s.items []

/-! ### the order of local and linked items -/

/-- key of a child: (tag, family index) (itree_main.py 3289-3297) -/
abbrev LKey := Tag × Nat

/-- an entry of `local_items`: its key, and the child itself or a placeholder (`none`) (itree_main.py 3289-3297) -/
abbrev LEntry (α : Type) := LKey × Option α

/-- `_iter_locals_add_placeholders` (itree_private.py 762-777) on the children (key, is_linked, child), with the dict of itree_main.py 3292-3297; `add` is the variable `add_placeholder` -/
def localEntries {α : Type} : Bool → List (LKey × Bool × α) → List (LEntry α)
  | _, [] => []
  | add, (k, lk, x) :: r => if lk && add then (k, Option.none) :: localEntries false r else (k, some x) :: localEntries true r

/-- what becomes a child: the new linked item of the source key, or an old child, with the source key it covers (itree_main.py 3308-3349) -/
inductive LOut (α : Type) where
  | new (k : LKey)
  | old (x : α) (k : LKey) (covers : Bool)
  deriving DecidableEq, Repr

/-- the entry appended when the key is reached: the new linked item for a placeholder, the local item otherwise (itree_main.py 3328-3332, 3342-3349) -/
def entryOut {α : Type} (k : LKey) : Option α → LOut α
  | Option.none => .new k
  | some x => .old x k true

/-- `append_list.append` for a local item that stands for no source key; placeholders are skipped (itree_main.py 3336-3339) -/
def addLocal {α : Type} (k : LKey) (acc : List (LKey × LOut α)) : Option α → List (LKey × LOut α)
  | Option.none => acc
  | some x => acc ++ [(k, .old x k false)]

/-- the inner loop itree_main.py 3326-3339: the entries to be appended for the source key `key`; `inSrc k` is `k in load_item` -/
def collect {α : Type} (inSrc : LKey → Bool) (key : LKey) : List (LEntry α) → List (LKey × LOut α) → List (LKey × LOut α)
  | [], acc => acc
  | (k, i) :: r, acc =>
    if k = key then acc ++ [(k, entryOut k i)]
    else if inSrc k then collect inSrc key r []
    else collect inSrc key r (addLocal k acc i)

/-- `del local_items[k]` for every collected entry (itree_main.py 3344-3346) -/
def removeKeys {α : Type} (ks : List LKey) (E : List (LEntry α)) : List (LEntry α) := E.filter fun e => decide (e.1 ∉ ks)

/-- the loop over the source keys (itree_main.py 3308-3349) and the rest of the local items (3353-3354) -/
def mergeLoop {α : Type} (inSrc : LKey → Bool) : List LKey → List (LEntry α) → List (LOut α)
  | [], E => E.filterMap fun e => e.2.map fun x => .old x e.1 false
  | key :: rest, E =>
    if key ∈ E.map (·.1) then
      let al := collect inSrc key E []
      al.map (·.2) ++ mergeLoop inSrc rest (removeKeys (al.map (·.1)) E)
    else .new key :: mergeLoop inSrc rest E

/-- the children of the link root after loading: old children (key, is_linked, child), keys of the source (itree_main.py 3289-3357) -/
def mergeKids {α : Type} (old : List (LKey × Bool × α)) (src : List LKey) : List (LOut α) :=
  mergeLoop (fun k => decide (k ∈ src)) src (localEntries false old)

end ITree
