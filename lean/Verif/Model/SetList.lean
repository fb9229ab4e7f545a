import Verif.Model.Mutate
/-
Model of `t[target] = [x1, x2, …]` (`__setitem__` with a list or a tuple, itree_main.py 1550-1559) and of `t.remove(items)` with an iterable (2020-2042).
Simplifications: the elements are items or values that are no lists or tuples themselves (nested lists are not modelled); reading an old item that has lost its parent meanwhile (`idx` is `None`, the nested
assignment then looks for a family `None`) is a KeyError; the exception kinds of `remove` other than PermissionError and ValueError are mapped to TypeError as in the code (2041-2042).
-/
namespace ITree

/-- `old_items[i]` (itree_main.py 1557-1559): `old_items` is the result of `t[target]` – a list of items, or one item whose `__getitem__` is called -/
def oldAt (h : Heap) (old : GetRes) (i : Nat) : Except Err Id :=
  match old with
  | .many l => match l[i]? with
    | some x => .ok x
    | none => .error .index
  | .one o => match getItem h o (.int i) with
    | .error e => .error e
    | .ok (.one c) => .ok c
    | .ok (.many _) => .error .attribute

/-- `[it_setitem(old_items[i].idx, new) for i, new in enumerate(value)]` (itree_main.py 1559) -/
def setListLoop (h : Heap) (p : Id) (old : GetRes) (i : Nat) : List Arg → Res (List Id)
  | [] => (h, .ok [])
  | a :: as =>
    match oldAt h old i with
    | .error e => (h, .error e)
    | .ok o =>
      let r := h.idx o
      match r.2 with
      | .error e => (r.1, .error e)
      | .ok none => (r.1, .error .key)
      | .ok (some k) =>
        let s := setItem r.1 p (.int k) a
        match s.2 with
        | .error e => (s.1, .error e)
        | .ok x =>
          let q := setListLoop s.1 p old (i + 1) as
          match q.2 with
          | .error e => (q.1, .error e)
          | .ok xs => (q.1, .ok (x :: xs))

/-- `t[target] = [x1, x2, …]` (itree_main.py 1535-1559) -/
def setList (h : Heap) (p : Id) (tg : Target) (as : List Arg) : Res (List Id) :=
  match guardPlace h p (.val .noValue) with
  | some e => (h, .error e)
  | none =>
    match getItem h p tg with
    | .error e => (h, .error e)
    | .ok old => setListLoop h p old 0 as

/-- `for i in reversed(item_list): self.__delitem__(i.idx)` (itree_main.py 2036-2037), list given reversed -/
def removeLoop (h : Heap) (p : Id) : List Id → Res Unit
  | [] => (h, .ok ())
  | x :: xs =>
    let r := delByItem h p x
    match r.2 with
    | .error .permission => (r.1, .error .permission)
    | .error .value => (r.1, .error .value)
    | .error _ => (r.1, .error .type)
    | .ok _ => removeLoop r.1 p xs

/-- the check of the items before anything is removed (itree_main.py 2021-2035) -/
def removeCheck (h : Heap) (p : Id) : List Id → Option Err
  | [] => none
  | x :: xs =>
    match (h.node x).parent with
    | none => some .type                             -- `None[0]`
    | some r =>
      if r.pid = p then
        if h.isLinkRoot p && h.linkLoaded p && isForeign h x then some .permission else removeCheck h p xs
      else some .value

/-- `remove(items)` with an iterable of items (itree_main.py 2020-2042) -/
def removeMany (h : Heap) (p : Id) (l : List Id) : Res (List Id) :=
  match removeCheck h p l with
  | some e => (h, .error e)
  | none =>
    let r := removeLoop h p l.reverse
    (r.1, r.2.map fun _ => l)

end ITree
