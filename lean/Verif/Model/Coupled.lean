import Verif.Model.LinksHeap
import Verif.Model.Size
import Verif.Model.Step
/-
Coupled objects (itree_main.py 1112-1141): any Python object can be attached to an item.  The attribute `_coupled` is written by `set_coupled_object` only, which the user calls, and `load_links` for the items it
replaces; no other function of the package touches it.  So it is modelled as a table beside the heap.
-/
namespace ITree

/-- The attribute `_coupled` of all items: not set, set to None, or set to an object of `α` (itree_main.py 75, 1141). -/
abbrev Couples (α : Type) := Id → Option (Option α)

/-- `x.coupled_object` (itree_main.py 1112-1125): None if the attribute is not set -/
def coupledObject {α : Type} (c : Couples α) (x : Id) : Option α :=
  match c x with
  | some o => o
  | Option.none => Option.none

/-- `x.set_coupled_object(o)` (itree_main.py 1128-1141): no protection, no other effect -/
def setCoupled {α : Type} (c : Couples α) (x : Id) (o : Option α) : Couples α := fun i => if i = x then some o else c i

/-- the actions of a user: calls on the tree (`step`), and coupling an object to an item (itree_main.py 1112-1141) -/
inductive CAct (α : Type) where
  | call (a : Call)
  | couple (x : Id) (o : Option α)

/-- a history of tree calls and couplings; the tree calls (itree_main.py, all modelled in Model/Step) do not touch `_coupled` (itree_main.py 1112-1141) -/
def runC {α : Type} (ms : ModelSet) : Heap → Couples α → List (CAct α) → Heap × Couples α
  | h, c, [] => (h, c)
  | h, c, .call a :: as => runC ms (step ms h a).1 c as
  | h, c, .couple x o :: as => runC ms h (setCoupled c x o) as

/-- `check2` of `equal` with `check_coupled=True` (itree_main.py 2535-2538), `is` as equality -/
def sameCoupled {α : Type} [DecidableEq α] (c : Couples α) (i j : Id) : Bool :=
  if (c i).isSome || (c j).isSome then ((c i).isSome && (c j).isSome) && decide (c i = c j) else true

/-- the loop of `equal(check_coupled=True)` over the pairs of in-depth items (itree_main.py 2549-2567) -/
def equalLoopC {α : Type} [DecidableEq α] (c : Couples α) (flagsToo : Bool) : List (Tree × Tree) → Bool
  | [] => true
  | (a, b) :: ps =>
    if (flagsToo && a.flags != b.flags) || !sameCoupled c a.id b.id then false
    else if argsEq a b then equalLoopC c flagsToo ps
    else if valueEqual a.value b.value then equalLoopC c flagsToo ps
    else false

/-- `t.equal(u, check_coupled=True, check_flags=flagsToo)` (itree_main.py 2514-2570) -/
def equalCoupled {α : Type} [DecidableEq α] (h : Heap) (c : Couples α) (a b : Id) (flagsToo : Bool) : Bool :=
  if a = b then true
  else if (flagsToo && h.flags a != h.flags b) || !sameCoupled c a b then false
  else if (h.tree a).tag != (h.tree b).tag || (h.tree a).kids.length != (h.tree b).kids.length || !valueEqual (h.tree a).value (h.tree b).value then false
  else equalLoopC c flagsToo ((h.tree a).deep.zip (h.tree b).deep)

/-- `old_coupled_objects` (itree_main.py 3298-3299): the objects of the linked children by their keys, only those that count as true.  `l` are the children with their keys; simplification: `i.tag_idx` is taken from the
numbering done by `_iter_locals_add_placeholders` one line before, which has just written the family position into every child (`numberKids_reads`). -/
def oldCouples {α : Type} (truthy : α → Bool) (h : Heap) (c : Couples α) (l : List (LKey × Id)) : List (LKey × α) :=
  l.filterMap fun e => if (h.flags e.2).has Flags.linked then
      match coupledObject c e.2 with
      | some o => if truthy o then some (e.1, o) else Option.none
      | Option.none => Option.none
    else Option.none

/-- results of the functions of `load_links` with the table (itree_main.py 3227-3369) -/
abbrev CRes (α β : Type) := Heap × Couples α × Except Err β

/-- `linkedItem` with the table (itree_main.py 3310-3320): only the nested `load_links` may change it -/
def linkedItemC {α : Type} (load : Heap → Couples α → Id → CRes α Bool) (h : Heap) (c : Couples α) (x : Id) : CRes α Id :=
  if h.isLinkRoot x then
    let r := load h c x
    match r.2.2 with
    | .error .type => (r.1, r.2.1, .error .recursion)
    | .error e => (r.1, r.2.1, .error e)
    | .ok _ =>
      let q := copyItem r.1 x
      (q.1.modify q.2 fun n => { n with flags := n.flags ||| Flags.linked }, r.2.1, .ok q.2)
  else if (h.flags x).has Flags.linked then (h, c, .ok x)
  else match convert (convFuel (h.tree x)) (h.tree x) with
    | some [U] => let b := build h U; (b.1, c, .ok b.2)
    | _ => (h, c, .error .runtime)

/-- `if key in old_coupled_objects: new_item.set_coupled_object(old_coupled_objects[key])` (itree_main.py 3321-3322) -/
def handOver {α : Type} (d : List (LKey × α)) (c : Couples α) (key : LKey) (x : Id) : Couples α :=
  match d.find? fun e => e.1 = key with
  | some e => setCoupled c x (some e.2)
  | Option.none => c

/-- `loadLoop` with the table (itree_main.py 3308-3349) -/
def loadLoopC {α : Type} (load : Heap → Couples α → Id → CRes α Bool) (d : List (LKey × α)) (p s : Id) : Heap → Couples α → List Id → List (LEntry Id) → List LKey → CRes α (List (LEntry Id) × List LKey)
  | h, c, [], E, ks => (h, c, .ok (E, ks))
  | h, c, y :: ys, E, ks =>
    let n := linkedItemC load h c y
    match n.2.2 with
    | .error e => (n.1, n.2.1, .error e)
    | .ok x =>
      let g := n.1.tagIdx y
      match g.2 with
      | .error e => (g.1, n.2.1, .error e)
      | .ok .none => (g.1, n.2.1, .error .type)
      | .ok (.bare _) => (g.1, n.2.1, .error .type)
      | .ok (.pair t m) =>
        let key : LKey := (t, m.toNat)
        let c' := handOver d n.2.1 key x
        if key ∈ E.map (·.1) then
          let al := collect (fun k => containsTarget g.1 s (.key k.1 (.int k.2))) key E []
          loadLoopC load d p s ((al.map (·.2)).foldl (putOut x p) g.1) c' ys (removeKeys (al.map (·.1)) E) (ks ++ [key])
        else loadLoopC load d p s (appendItem g.1 p x) c' ys E (ks ++ [key])

/-- `takeOver` with the table (itree_main.py 3289-3357) -/
def takeOverC {α : Type} (truthy : α → Bool) (load : Heap → Couples α → Id → CRes α Bool) (h : Heap) (c : Couples α) (p s : Id) : CRes α Bool :=
  let r := numberKids h p
  match r.2 with
  | .error e => (r.1, c, .error e)
  | .ok l =>
    let E := localItems r.1 l
    let d := oldCouples truthy r.1 c l
    let h1 := dropKids r.1 p
    let q := loadLoopC load d p s h1 c (h1.kids s) E []
    match q.2.2 with
    | .error e => (q.1, q.2.1, .error e)
    | .ok (E', ks) =>
      let h2 := (E'.filterMap (·.2)).foldl (fun h x => appendItem h p x) q.1
      (h2.modify p fun n => { n with link := n.link.map fun l => { l with tags := (ks.map (·.1)).eraseDups, keys := ks, loaded := true } }, q.2.1, .ok true)

/-- `p.load_links(force)` on a link root with the table (itree_main.py 3226-3363); finding the target does not touch the table -/
def loadLinksC {α : Type} (env : LinkEnv) (truthy : α → Bool) (force : Bool) : Nat → Heap → Couples α → Id → CRes α Bool
  | 0, h, c, _ => (h, c, .error .recursion)
  | n + 1, h, c, p =>
    match (h.node p).link with
    | Option.none => (h, c, .ok false)
    | some lk =>
      let a := loadActive env h p lk force
      match a.2 with
      | .error e => (a.1, c, .error e)
      | .ok false => (a.1, c, .ok false)
      | .ok true =>
        let f := env.find a.1 p
        match f.2 with
        | .error e => (f.1, c, .error e)
        | .ok s => takeOverC truthy (loadLinksC env truthy force n) f.1 c p s

end ITree
