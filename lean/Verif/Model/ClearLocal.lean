import Verif.Model.Serialize
/-
`clear(local_only=True)` on a link root: the loop over `_iter_locals_add_placeholders` with the deletions made on the way.
-/
namespace ITree

/-- The `for` loop of `clear` (itree_main.py 1961-1965) driven by the generator `_iter_locals_add_placeholders` (itree_private.py 763-777).  The generator goes over the list of children itself, with a list iterator
that keeps the position `i`, while the loop body deletes children from that list.  `add` is `add_placeholder`, `td` the dict `tag_dict`.  A linked child met with `add` is replaced by a new placeholder object, which
the body skips; so are children that are placeholders.  The first argument bounds the number of rounds: the list of children never grows, so its length plus one is enough. -/
def clearLocalLoop (p : Id) : Nat → Heap → Nat → Bool → List (Tag × Int) → Res Unit
  | 0, h, _, _, _ => (h, .ok ())
  | n + 1, h, i, add, td => match (h.kids p)[i]? with
    | none => (h, .ok ())
    | some x => match bumpTag (h.tag x) td with
      | none => (h, .error .key)
      | some (k, td') => match (h.node x).parent with
        | none => (h, .error .type)
        | some r => if r.frozen then (h, .error .type) else
          let h1 := h.setParent x (some (r.setC .fam k))
          if (h1.flags x).has Flags.linked && add then clearLocalLoop p n h1 (i + 1) false td'
          else if (h1.flags x).has Flags.placeholder then clearLocalLoop p n h1 (i + 1) true td'
          else
            let d := delByItem h1 p x
            match d.2 with
            | .error e => (d.1, .error e)
            | .ok _ => clearLocalLoop p n d.1 (i + 1) true td'

/-- `p.clear(keep_value, local_only=True)` for a link root (itree_main.py 1957-1965, 1975-1976) -/
def clearLocalRoot (h : Heap) (p : Id) (keepValue : Bool) : Res Unit :=
  let r := clearLocalLoop p ((h.kids p).length + 1) h 0 false ((h.kids p).map fun c => (h.tag c, -1))
  match r.2 with
  | .error e => (r.1, .error e)
  | .ok _ => (if keepValue then r.1 else r.1.modify p fun n => { n with value := .noValue }, .ok ())

/-- `p.clear(keep_value, local_only=True)` (itree_main.py 1938-1976): `local_only` is ignored for items that are no link roots -/
def clearLocal (h : Heap) (p : Id) (keepValue : Bool) : Res Unit :=
  if h.isLinkRoot p then clearLocalRoot h p keepValue else clear h p keepValue

end ITree
