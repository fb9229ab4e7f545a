import Verif.Model.Query
/-
Model of `iTree.__sub__` (itree_main.py 2220-2265).  What Python's `-` / `replace` answer for two different tags and two different values is a parameter (`tagSub`, `valSub`); the
recursion runs over a snapshot of the item subtracted (the calls in the loop cannot change its structure).
-/
namespace ITree

/-- what subtraction asks Python for: `-` (or `replace`) of two different tags and of two different values, `_value_equal`, and `==` of items (itree_main.py 2220-2265) -/
structure SubOps where
  tagSub : Tag → Tag → Tag
  valSub : Val → Val → Val
  valEq : Val → Val → Bool
  itemEq : Heap → Id → Id → Bool

/-- … with the equalities of the library (itree_main.py 2220-2265) -/
def SubOps.lib (tagSub : Tag → Tag → Tag) (valSub : Val → Val → Val) : SubOps := ⟨tagSub, valSub, valueEqual, Heap.eqItem⟩

/-- the key `item.tag_idx` as a target (itree_main.py 2256-2257): a tuple, or the bare int that the full scans of `tag_idx` deliver -/
def TagIdx.target : TagIdx → Option Target
  | .none => Option.none
  | .pair t i => some (.key t (.int i))
  | .bare i => some (.int i)

/-- `key in new and new[key] == item` (itree_main.py 2258): the item found -/
def sameAt (O : SubOps) (h : Heap) (new x : Id) (tg : Target) : Option Id :=
  if containsTarget h new tg then
    match getItem h new tg with
    | .ok (.one o) => if O.itemEq h o x then some o else none
    | _ => none
  else none

/-- tag and value of the difference (itree_main.py 2229-2252), written without any check -/
def subHead (O : SubOps) (t u : Tag) (v w : Val) (n : Node) : Node :=
  { n with tag := if t = u then .noTag else O.tagSub t u, value := if O.valEq v w then .noValue else O.valSub v w }

/-- `for i in reversed(del_idx): del new[i]` (itree_main.py 2263-2264), list given reversed -/
def subDelete (h : Heap) (new : Id) : List Int → Res Unit
  | [] => (h, .ok ())
  | i :: is =>
    let r := delItem h new (.int i)
    match r.2 with
    | .error e => (r.1, .error e)
    | .ok _ => subDelete r.1 new is

mutual
/-- `t - other` (itree_main.py 2220-2265) -/
def subItem (O : SubOps) (h : Heap) (t : Id) : Tree → Res Id
  | .node _ tag value _ _ ks =>
    let c := copyItem h t
    let h1 := c.1.modify c.2 (subHead O (h.tag t) tag (h.node t).value value)
    let r := subLoop O h1 c.2 ks []
    match r.2 with
    | .error e => (r.1, .error e)
    | .ok del =>
      let q := subDelete r.1 c.2 del.reverse
      match q.2 with
      | .error e => (q.1, .error e)
      | .ok () => (q.1, .ok c.2)
/-- the loop over the children of `other` (itree_main.py 2254-2262); delivers `del_idx` -/
def subLoop (O : SubOps) (h : Heap) (new : Id) : List Tree → List Int → Res (List Int)
  | [], acc => (h, .ok acc)
  | k :: ks, acc =>
    let r := h.tagIdx k.id
    match r.2 with
    | .error e => (r.1, .error e)
    | .ok key =>
      match key.target with
      | none => (r.1, .error .type)
      | some tg =>
        match sameAt O r.1 new k.id tg with
        | some o =>
          let i := r.1.idx o
          match i.2 with
          | .error e => (i.1, .error e)
          | .ok none => (i.1, .error .type)
          | .ok (some n) => subLoop O i.1 new ks (acc ++ [n])
        | none =>
          match getItem r.1 new tg with
          | .error e => (r.1, .error e)
          | .ok (.many _) => (r.1, .error .type)
          | .ok (.one o) =>
            let s := subItem O r.1 o k
            match s.2 with
            | .error e => (s.1, .error e)
            | .ok x =>
              let q := setItem s.1 new tg (.item x)
              match q.2 with
              | .error e => (q.1, .error e)
              | .ok _ => subLoop O q.1 new ks acc
end

end ITree
