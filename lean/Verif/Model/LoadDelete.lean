import Verif.Model.FindLink
/-
`load_links(delete_invalid_items=True)` (itree_main.py 3226-3369): link roots whose source is not found are removed from their parent instead of raising.
-/
namespace ITree

/-- `p.load_links(force, delete_invalid_items=True)` on a link root `p` (itree_main.py 3249-3363), as `loadLinks` but for the lines 3280-3288.  The children of the source are read once, as in `takeOver`: if a nested
call removes the child of the source it is made for, `tag_idx` of that child is None and the loop over the children of the source ends with a TypeError at once (3320-3324). -/
def loadLinksDel (env : LinkEnv) (force : Bool) : Nat → Heap → Id → Res Bool
  | 0, h, _ => (h, .error .recursion)
  | n + 1, h, p =>
    match (h.node p).link with
    | Option.none => (h, .ok false)
    | some lk =>
      let a := loadActive env h p lk force
      match a.2 with
      | .error e => (a.1, .error e)
      | .ok false => (a.1, .ok false)
      | .ok true =>
        let f := env.find a.1 p
        match f.2 with
        | .ok s => takeOver (loadLinksDel env force n) f.1 p s
        | .error _ =>
          match f.1.par p with
          | Option.none => (f.1, .ok false)
          | some q =>
            let r := remove f.1 q p
            match r.2 with
            | .error e => (r.1, .error e)
            | .ok _ => (r.1, .ok false)

/-- the loop over the link roots below an item (itree_main.py 3364-3369) as `loadBelow`: the deep iterator keeps list iterators over the very lists the calls remove items from -/
def loadBelowDel (env : LinkEnv) (force : Bool) (n : Nat) : Nat → Heap → List (Id × Nat) → Bool → Option (Res Bool)
  | 0, _, _, _ => Option.none
  | _ + 1, h, [], b => some (h, .ok b)
  | k + 1, h, (c, i) :: st, b =>
    match (h.kids c)[i]? with
    | Option.none => loadBelowDel env force n k h st b
    | some x =>
      let r := if h.isLinkRoot x then loadLinksDel env force n h x else (h, .ok false)
      match r.2 with
      | .error e => some (r.1, .error e)
      | .ok l => loadBelowDel env force n k r.1 (if r.1.kids x = [] then (c, i + 1) :: st else (x, 0) :: (c, i + 1) :: st) (b || l)

/-- `p.load_links(force, delete_invalid_items=True)` for any item (itree_main.py 3226-3369); `n` nested calls are allowed, 201 at the start -/
def callLoadLinksDel (env : LinkEnv) (force : Bool) (n : Nat) (k : Nat) (h : Heap) (p : Id) : Option (Res Bool) :=
  match n with
  | 0 => some (h, .error .recursion)
  | m + 1 => if h.isLinkRoot p then some (loadLinksDel env force (m + 1) h p) else loadBelowDel env force m k h [(p, 0)] false

end ITree
