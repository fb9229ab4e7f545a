import Verif.Model.Deep
/-
Enumerations (itree_main.py 2653-2855), membership queries (2370-2429, 2572-2633, itree_indepth.py 296-460), arithmetic (2183-2282), hash (2635-2648).
-/
namespace ITree

/-! ### keys, items, values -/

/-- `tag_cnts[tag] = cnt = tag_cnts[tag] + 1` on the counter dict of `keys`/`items` (itree_main.py 2675-2687); `none` is KeyError -/
def bump : List (Tag × Nat) → Tag → Option (Nat × List (Tag × Nat))
  | [], _ => none
  | (t', n) :: r, t => if t' = t then some (n, (t', n + 1) :: r) else (bump r t).map fun q => (q.1, (t', n) :: q.2)

/-- the loop of `keys` and `items` (itree_main.py 2675-2687, 2733-2758) over the children; the counters hold the next number. Items without parent list cannot
store the cache: TypeError. -/
def itemsLoop (f : Id → Bool) : Heap → List Id → List (Tag × Nat) → Res (List ((Tag × Nat) × Id))
  | h, [], _ => (h, .ok [])
  | h, x :: xs, cs =>
    match bump cs (h.tag x) with
    | none => (h, .error .key)
    | some (n, cs') =>
      match (h.node x).parent with
      | none => (h, .error .type)
      | some r =>
        if r.frozen then (h, .error .type) else
        let q := itemsLoop f (h.setParent x (some { r with famC := n })) xs cs'
        match q.2 with
        | .error e => (q.1, .error e)
        | .ok l => (q.1, .ok (if f x then ((h.tag x, n), x) :: l else l))

/-- `list(p.items(filter_method))` (itree_main.py 2709-2758), `p.items(…, values_only=True)` and `p.keys(filter_method)` (2657-2687) are projections of it.
An item that never had children has no attribute `_families`. No filter is the filter that is always true. -/
def itemsOf (h : Heap) (p : Id) (f : Id → Bool) : Res (List ((Tag × Nat) × Id)) :=
  match (h.node p).fams with
  | none => (h, .error .attribute)
  | some F => itemsLoop f h (h.kids p) (F.map fun e => (e.1, 0))

/-- `list(p.keys(filter_method))` (itree_main.py 2657-2687) -/
def keysOf (h : Heap) (p : Id) (f : Id → Bool) : Res (List (Tag × Nat)) :=
  let r := itemsOf h p f
  (r.1, r.2.map fun l => l.map Prod.fst)

/-- `list(p.values(filter_method))` (itree_main.py 2689-2707): the stored objects -/
def valuesOf (h : Heap) (p : Id) (f : Id → Bool) : List Val := ((h.kids p).filter f).map fun x => (h.node x).value

/-! ### families in order -/

/-- `[(i.idx, i) for i in l]` (itree_main.py 2657-2758) -/
def idxAll : Heap → List Id → Res (List (Int × Id))
  | h, [] => (h, .ok [])
  | h, x :: xs =>
    let r := h.idx x
    match r.2 with
    | .error e => (r.1, .error e)
    | .ok none => (r.1, .error .type)
    | .ok (some k) =>
      let q := idxAll r.1 xs
      match q.2 with
      | .error e => (q.1, .error e)
      | .ok l => (q.1, .ok ((k, x) :: l))

/-- `sorted((v[index] for v in self._families.values()), key=lambda i: i.idx)` (itree_main.py 2795-2799, 2820, 2854) -/
def famReps (h : Heap) (F : Fams) (last : Bool) : Res (List Id) :=
  match F.mapM fun e => if last then e.2.getLast? else e.2.head? with
  | none => (h, .error .index)
  | some l =>
    let r := idxAll h l
    match r.2 with
    | .error e => (r.1, .error e)
    | .ok kl => (r.1, .ok ((kl.mergeSort fun a b => decide (a.1 ≤ b.1)).map Prod.snd))

/-- `list(p.iter_families(filter_method, order_last))` (itree_main.py 2760-2799); `none`: the call returns None for an item without children -/
def iterFamilies (h : Heap) (p : Id) (f : Id → Bool) (last : Bool) : Res (Option (List (Tag × List Id))) :=
  if h.kids p = [] then (h, .ok none) else
  match (h.node p).fams with
  | none => (h, .error .attribute)
  | some F =>
    let r := famReps h F last
    match r.2 with
    | .error e => (r.1, .error e)
    | .ok l =>
      match l.mapM fun i => (((r.1.boundFams p).getD []).get? (r.1.tag i)).map fun fam => (r.1.tag i, fam.filter f) with
      | some out => (r.1, .ok (some out))
      | none => (r.1, .error .key)

/-- `list(p.iter_family_items(order_last))` (itree_main.py 2801-2822) -/
def iterFamilyItems (h : Heap) (p : Id) (last : Bool) : Res (List Id) :=
  let r := iterFamilies h p (fun _ => true) last
  (r.1, r.2.map fun o => match o with | none => [] | some l => (l.map Prod.snd).flatten)

/-- `list(p.tags(order_last))` (itree_main.py 2824-2855) -/
def tagsOf (h : Heap) (p : Id) (last : Bool) : Res (List Tag) :=
  match h.kids p with
  | [] => (h, .ok [])
  | x :: l =>
    match (h.node p).fams with
    | none => (h, .error .attribute)
    | some F =>
      if (x :: l).length = 1 then (h, .ok [h.tag x])
      else if F.length = (x :: l).length then (h, .ok ((x :: l).map h.tag))
      else
        let r := famReps h F last
        (r.1, r.2.map fun reps => reps.map r.1.tag)

/-! ### membership -/

/-- `target in p` (itree_main.py 2370-2401) for an item -/
def containsItem (h : Heap) (p x : Id) : Bool := (h.kids p).any fun c => h.eqItem c x

/-- `target in p` for any other target: exceptions give False; `next` on the list that `__getitem__` returns for several items is a TypeError (itree_main.py 2370-2401) -/
def containsTarget (h : Heap) (p : Id) (tg : Target) : Bool :=
  match getItem h p tg with
  | .ok (.one _) => true
  | .ok (.many _) => false
  | .error _ => false

/-- `p.is_tag_in(tag)` (itree_main.py 2403-2412) -/
def isTagIn (h : Heap) (p : Id) (t : Tag) : Bool :=
  if h.kids p = [] then false else (((h.node p).fams.getD []).get? t).isSome

/-- `p.is_in(item)` (itree_main.py 2414-2429) -/
def isIn (h : Heap) (p x : Id) : Bool := h.par x == some p

/-- `p.count(item)` (itree_main.py 2572-2582): `item == i` -/
def countEq (h : Heap) (p x : Id) : Nat := ((h.kids p).filter fun c => h.eqItem x c).length

/-- `dropwhile` until an element is met, then its position and the rest of the iterator (itree_main.py 2584-2633) -/
def dropTo (q : Id → Bool) : List Id → Option (Id × List Id)
  | [] => none
  | x :: xs => if q x then some (x, xs) else dropTo q xs

/-- the part of the search in `index` and `deep.index` after `start` was met (itree_main.py 2619-2633, itree_indepth.py 446-460) -/
def findRest (eq : Id → Id → Bool) (x : Id) (stop : Option Id) (l : List Id) : Except Err Id :=
  match stop with
  | some s => match dropTo (fun i => i == s || eq i x) l with
    | some (i, _) => if i = s then .error .index else .ok i
    | none => .error .index
  | none => match dropTo (fun i => eq i x) l with
    | some (i, _) => .ok i
    | none => .error .index

/-- the search part shared by `index` and `deep.index` (itree_main.py 2608-2633, itree_indepth.py 434-460): the found item or IndexError.  `start` and `stop` are items. -/
def findItem (eq : Id → Id → Bool) (l : List Id) (x : Id) (start stop : Option Id) : Except Err Id :=
  match start with
  | none => findRest eq x stop l
  | some s => match dropTo (fun i => i == s) l with
    | none => .error .index
    | some (i, rest) => if eq i x then .ok i else findRest eq x stop rest

/-- `p.index(item, start, stop)` (itree_main.py 2584-2633); `none` is the return value None for an item without children -/
def indexOf (h : Heap) (p x : Id) (start stop : Option Id) : Res (Option Int) :=
  if h.kids p = [] then (h, .ok none) else
  match findItem h.eqItem (h.kids p) x start stop with
  | .error e => (h, .error e)
  | .ok i => h.idx i

/-- `item in p.deep` (itree_indepth.py 338-359) -/
def deepContains (n : Nat) (h : Heap) (p x : Id) : Option Bool := (deepList n h p).map fun l => l.any fun c => h.eqItem c x
/-- `p.deep.count(item)` (itree_indepth.py 296-308) -/
def deepCount (n : Nat) (h : Heap) (p x : Id) : Option Nat := (deepList n h p).map fun l => (l.filter fun c => h.eqItem x c).length
/-- `p.deep.is_tag_in(tag)` (itree_indepth.py 361-372) -/
def deepIsTagIn (n : Nat) (h : Heap) (p : Id) (t : Tag) : Option Bool := (deepList n h p).map fun l => l.any fun c => isTagIn h c t
/-- `p.deep.is_in(item)` (itree_indepth.py 374-396) -/
def deepIsIn (n : Nat) (h : Heap) (p x : Id) : Option Bool := isInAux n h p x

/-- `p.deep.index(item, start, stop)` (itree_indepth.py 398-460): the index path of the found item with the first `len(p.idx_path)` elements cut off -/
def deepIndexOf (n : Nat) (h : Heap) (p x : Id) (start stop : Option Id) : Option (Res (Option (List Int))) :=
  if h.kids p = [] then some (h, .ok none) else
  match deepList n h p with
  | none => none
  | some l =>
    let r := h.idxPath p
    match r.2 with
    | .error e => some (r.1, .error e)
    | .ok base =>
      match findItem r.1.eqItem l x start stop with
      | .error e => some (r.1, .error e)
      | .ok i =>
        let q := r.1.idxPath i
        match q.2 with
        | .error e => some (q.1, .error e)
        | .ok path => some (q.1, .ok (some (path.drop base.length)))

/-! ### arithmetic -/

/-- `iTree(tag, value, subtree, flags=flags)` with an iterator as subtree: `if subtree:` holds for every iterator, so `_families` exists afterwards even if nothing is delivered
(itree_main.py 260-298, itree_private.py 258-276); otherwise as `newItem` -/
def newFrom (h : Heap) (t : Tag) (v : Val) (sub : List Arg) (f : Flags) : Res Id :=
  let r := h.alloc { tag := t, value := v, flags := f, fams := some [] }
  (initLoop r.1 r.2 0 (f &&& Flags.deepMask) sub, .ok r.2)

/-- copies of a list of items, one after the other (itree_main.py 2183-2210) -/
def copyAll : Heap → List Id → Heap × List Id
  | h, [] => (h, [])
  | h, x :: xs =>
    let c := copyItem h x
    let r := copyAll c.1 xs
    (r.1, c.2 :: r.2)

/-- `t + u` (itree_main.py 2267-2282). In the code the copies are made lazily while the new item consumes them; the copies are fresh objects and the order of allocation is
not observable. `u` is an item (anything else is a TypeError). -/
def addItems (h : Heap) (t u : Id) : Res Id :=
  if h.isLinkRoot t then (h, .error .type) else
  let r := copyAll h (h.kids t ++ h.kids u)
  newFrom r.1 (h.tag t) (h.node t).value (r.2.map Arg.item) (h.flags t)

/-- `t * n` (itree_main.py 2183-2210): the copy of `t` repeated `n` times; the first gets added itself, the following are copied again because the copy has a parent then -/
def mulItem (h : Heap) (t : Id) (n : Int) : Res Id :=
  let c := copyItem h t
  newFrom c.1 (h.tag t) (h.node t).value (List.replicate n.toNat (Arg.item c.2)) (h.flags t)

/-- `t * u` with an item `u` (itree_main.py 2203-2207, 2210): `product` makes all copies of the children of `t`, then all copies of the children of `u`, and delivers every pair; the pairs are chained -/
def mulTree (h : Heap) (t u : Id) : Res Id :=
  if h.isLinkRoot t then (h, .error .type) else
  let r := copyAll h (h.kids t)
  let s := copyAll r.1 (h.kids u)
  newFrom s.1 (h.tag t) (h.node t).value ((r.2.flatMap fun a => s.2.flatMap fun b => [a, b]).map Arg.item) (h.flags t)

/-- `n * t` (itree_main.py 2212-2218) -/
def rmulItem (h : Heap) (n : Int) (t : Id) : Res Id :=
  let c := copyItem h t
  newFrom c.1 .noTag .noValue (List.replicate n.toNat (Arg.item c.2)) 0#6

/-! ### hash -/

mutual
/-- `hash(t)` (itree_main.py 2635-2648): `hash((tuple(self), self._tag, h))`, where `h` is the hash of the value (or of its pickle). The hash functions of tags, values and tuples are
parameters. -/
def Tree.hash (hTag : Tag → Nat) (hVal : Val → Nat) (comb : List Nat → Nat → Nat → Nat) : Tree → Nat
  | .node _ t v _ _ ks => comb (Tree.hashL hTag hVal comb ks) (hTag t) (hVal v)
/-- the hashes of the children, itree_main.py 2635-2647 -/
def Tree.hashL (hTag : Tag → Nat) (hVal : Val → Nat) (comb : List Nat → Nat → Nat → Nat) : List Tree → List Nat
  | [] => []
  | k :: ks => Tree.hash hTag hVal comb k :: Tree.hashL hTag hVal comb ks
end

end ITree
