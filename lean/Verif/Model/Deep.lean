import Verif.Model.Nav
/-
Deep iterators (itree_indepth.py, itree_indepth_helpers/).

The generators are modelled as step machines over their local variables.  The consumer is assumed not to change the tree while it consumes
the generator (the path iterators themselves write position caches; this is modelled).  `iterators[-1]` is the head of the list here.  A Python list
iterator is represented by its remaining elements.
-/
namespace ITree

/-- one round of a generator: finished, exception, or some yielded objects and a new state (a generator of Python; itree_indepth_iter.py 15-718) -/
inductive GStep (σ β : Type) where
  | done
  | fail (e : Err)
  | more (out : List β) (s : σ)

/-- Run a generator for at most `n` rounds: everything yielded and the final state or the exception; `none` when it has not ended. (a generator of Python; itree_indepth_iter.py 15-718) -/
def gen {σ β : Type} (step : σ → GStep σ β) : Nat → σ → Option (List β × Except Err σ)
  | 0, _ => none
  | n + 1, s => match step s with
    | .done => some ([], .ok s)
    | .fail e => some ([], .error e)
    | .more out s' => (gen step n s').map fun r => (out ++ r.1, r.2)

/-- `iter(x)` or `reversed(x)` (the class has no `__reversed__`; the sequence protocol delivers the same objects from the end) (itree_indepth_iter.py 190-226) -/
def chOf (rev : Bool) (h : Heap) (x : Id) : List Id := if rev then (h.kids x).reverse else h.kids x

/-! ### top-down iteration -/

/-- The loop of `_iter_normal` (`ch` = children in order; itree_indepth_iter.py 40-69), of `deep.__iter__` (itree_indepth.py 559-577) and of `_iter_reverse`
(`ch` = children reversed; itree_indepth_iter.py 190-226).  `filter(filter_method, …)` skips the elements that do not match; no filter is
the filter that is always true. -/
def preStep (ch : Id → List Id) (f : Id → Bool) : List (List Id) → GStep (List (List Id)) Id
  | [] => .done
  | [] :: st => .more [] st
  | (x :: xs) :: st =>
    if f x then .more [x] (if ch x = [] then xs :: st else ch x :: xs :: st) else .more [] (xs :: st)

/-- the stack of the bottom-up generators also holds tuples `(None, item)` (itree_indepth_iter.py 342-386) -/
inductive Fr where
  | it (l : List Id)
  | mark (x : Id)

/-- The loop of `_iter_up` and `_iter_up_reverse` (itree_indepth_iter.py 342-386, 530-574). `iterators.pop()[-1]` is the item of the tuple. -/
def postStep (ch : Id → List Id) (f : Id → Bool) : List Fr → GStep (List Fr) Id
  | [] => .done
  | .it [] :: st => .more [] st
  | .mark x :: st => .more [x] st
  | .it (x :: xs) :: st =>
    if f x then
      if ch x = [] then .more [x] (.it xs :: st) else .more [] (.it (ch x) :: .mark x :: .it xs :: st)
    else .more [] (.it xs :: st)

/-- option bits (itree_helpers.py 396-408) -/
structure IterOpts where
  up : Bool := false
  reverse : Bool := false
  self : Bool := false
  filterAny : Bool := false
  deriving DecidableEq

/-- decoding of the integer `options` in `deep.iter` (itree_indepth.py 613-641): `0` becomes UP; other bits (and DOWN) are ignored – the test of
the valid options is applied to a constant and never fails. -/
def IterOpts.ofInt (n : Nat) : IterOpts :=
  if n = 0 then { up := true } else ⟨n.testBit 1, n.testBit 2, n.testBit 3, n.testBit 4⟩

/-- The generators selected by `_ITER_HELPERS` (itree_indepth.py 62-67), for one (possibly always true) filter: everything they yield within `n` rounds.
With SELF the generator stops at once when the item itself does not match; the item itself comes first in `_iter_normal` and last in the
others.  `if itree:` (no children: nothing below) agrees with starting the loop on an empty iterator. -/
def iterHelper (n : Nat) (h : Heap) (x : Id) (f : Id → Bool) (o : IterOpts) : Option (List Id) :=
  if o.self && !f x then some [] else
  let me := if o.self then [x] else []
  if o.up then (gen (postStep (chOf o.reverse h) f) n [.it (chOf o.reverse h x)]).map fun r => r.1 ++ me
  else (gen (preStep (chOf o.reverse h) f) n [chOf o.reverse h x]).map fun r => if o.reverse then r.1 ++ me else me ++ r.1

/-- `list(x.deep.iter(filter_method, options))` (itree_indepth.py 613-641) -/
def deepIter (n : Nat) (h : Heap) (x : Id) (f : Option (Id → Bool)) (options : Nat) : Option (List Id) :=
  let o := IterOpts.ofInt options
  match f with
  | none => iterHelper n h x (fun _ => true) o
  | some f => if o.filterAny then (iterHelper n h x (fun _ => true) o).map (List.filter f) else iterHelper n h x f o

/-- `list(x.deep)` (itree_indepth.py 559-577) -/
def deepList (n : Nat) (h : Heap) (x : Id) : Option (List Id) :=
  (gen (preStep h.kids fun _ => true) n [h.kids x]).map (·.1)

/-- `len(x.deep)` (itree_indepth.py 229-238) -/
def deepLen (n : Nat) (h : Heap) (x : Id) : Option Nat := (deepList n h x).map List.length

/-- `x.deep.filtered_len(f, hierarchical)` (itree_indepth.py 310-336) -/
def filteredLen (n : Nat) (h : Heap) (x : Id) (f : Id → Bool) (hierarchical : Bool) : Option Nat :=
  if hierarchical then (deepIter n h x (some f) 1).map List.length else (deepList n h x).map fun l => (l.filter f).length

/-- the upward loop of `deep.is_in` (itree_indepth.py 374-396): `… and parent or None` gives None for a parent without children (an item without children is falsy) -/
def isInAux : Nat → Heap → Id → Id → Option Bool
  | 0, _, _, _ => none
  | n + 1, h, x, y => match h.par y with
    | none => some false
    | some p => if h.kids p = [] then some false else if p = x then some true else isInAux n h x p

/-! ### path iterators -/

/-- How a path iterator numbers the items: `enter` makes the counter of a level, `visit` counts one child and stores the position in the cache of the child,
`lab` is the current last path element. (itree_indepth_iter.py 72-187) -/
structure Labeller where
  σ : Type
  L : Type
  enter : Heap → Id → Except Err σ
  visit : Heap → Id → σ → Except Err (Heap × σ)
  lab : σ → L

/-- `item._itree_prt_idx[k] = i` (itree_indepth_iter.py 110, 122-187) -/
def writeC (c : Cache) (h : Heap) (x : Id) (i : Int) : Except Err Heap :=
  match (h.node x).parent with
  | none => .error .type
  | some r => if r.frozen then .error .type else .ok (h.setParent x (some (r.setC c i)))

/-- the list `indexes` of `_iter_normal_idxpath` and `_iter_up_idxpath`: starts with -1 and counts up (itree_indepth_iter.py 88-92, 409-414), of
`_iter_reverse_idxpath` and `_iter_up_reverse_idxpath`: starts with the number of children and counts down (238-241, 601-607) -/
def idxLab (rev : Bool) : Labeller where
  σ := Int
  L := Int
  enter h x := .ok (if rev then ((h.kids x).length : Int) else -1)
  visit h x s := match writeC .abs h x (if rev then s - 1 else s + 1) with
    | .ok h' => .ok (h', if rev then s - 1 else s + 1)
    | .error e => .error e
  lab s := s

/-- the lists `tag_idx_dicts` and `tag_idxs` of the tag-index variants (itree_indepth_iter.py 131-139, 284-290, 462-470, 655-663) -/
def tagLab (rev : Bool) : Labeller where
  σ := List (Tag × Int) × TagIdx
  L := TagIdx
  enter h x := match (h.node x).fams with
    | none => .error .attribute
    | some F => .ok (F.map fun e => (e.1, if rev then (e.2.length : Int) else -1), .none)
  visit h x s := match s.1.lookup (h.tag x) with
    | none => .error .key
    | some i => match writeC .fam h x (if rev then i - 1 else i + 1) with
      | .ok h' => .ok (h', s.1.map (fun e => if e.1 = h.tag x then (e.1, if rev then i - 1 else i + 1) else e),
          .pair (h.tag x) (if rev then i - 1 else i + 1))
      | .error e => .error e
  lab s := s.2

/-- state of a path iterator: the heap (caches), `iterators`, the counters of the open levels (innermost first) (itree_indepth_iter.py 72-187) -/
structure PSt (l : Labeller) where
  h : Heap
  its : List Fr
  lvs : List l.σ

/-- `path + tuple(indexes)` (itree_indepth_iter.py 72-119) -/
def PSt.path {l : Labeller} (pfx : List l.L) (lvs : List l.σ) : List l.L := pfx ++ lvs.reverse.map l.lab

/-- the loop of the top-down path iterators (itree_indepth_iter.py 86-119, 128-187, 229-275, 279-337) -/
def prePStep (l : Labeller) (rev : Bool) (f : Id → Bool) (pfx : List l.L) (s : PSt l) : GStep (PSt l) (List l.L × Id) :=
  match s.its, s.lvs with
  | [], _ => .done
  | .it [] :: st, lv => .more [] ⟨s.h, st, lv.tail⟩
  | .it (x :: xs) :: st, lv :: lvs =>
    match l.visit s.h x lv with
    | .error e => .fail e
    | .ok (h', lv') =>
      if f x then
        if h'.kids x = [] then .more [(PSt.path pfx (lv' :: lvs), x)] ⟨h', .it xs :: st, lv' :: lvs⟩
        else match l.enter h' x with
          | .ok nw => .more [(PSt.path pfx (lv' :: lvs), x)] ⟨h', .it (chOf rev h' x) :: .it xs :: st, nw :: lv' :: lvs⟩
          | .error e => .fail e
      else .more [] ⟨h', .it xs :: st, lv' :: lvs⟩
  | _, _ => .fail .index

/-- the loop of the bottom-up path iterators (itree_indepth_iter.py 389-448, 451-527, 578-637, 640-718); here the counter of a level is dropped
when the tuple `(None, item)` is met -/
def postPStep (l : Labeller) (rev : Bool) (f : Id → Bool) (pfx : List l.L) (s : PSt l) : GStep (PSt l) (List l.L × Id) :=
  match s.its, s.lvs with
  | [], _ => .done
  | .it [] :: st, lv => .more [] ⟨s.h, st, lv⟩
  | .mark x :: st, lv => if f x then .more [(PSt.path pfx lv.tail, x)] ⟨s.h, st, lv.tail⟩ else .more [] ⟨s.h, st, lv.tail⟩
  | .it (x :: xs) :: st, lv :: lvs =>
    match l.visit s.h x lv with
    | .error e => .fail e
    | .ok (h', lv') =>
      if f x then
        if h'.kids x = [] then .more [(PSt.path pfx (lv' :: lvs), x)] ⟨h', .it xs :: st, lv' :: lvs⟩
        else match l.enter h' x with
          | .ok nw => .more [] ⟨h', .it (chOf rev h' x) :: .mark x :: .it xs :: st, nw :: lv' :: lvs⟩
          | .error e => .fail e
      else .more [] ⟨h', .it xs :: st, lv' :: lvs⟩
  | _, _ => .fail .index

/-- The generators of `_ITER_IDXPATH_HELPERS`/`_ITER_TAGIDXPATH_HELPERS` (itree_indepth.py 69-81) after the path `pfx` of the item itself was read.  The
filtered top-down tag-index variant yields the item itself a second time at the end (itree_indepth_iter.py 152-156): `twice`. -/
def pathHelper (l : Labeller) (n : Nat) (h : Heap) (x : Id) (pfx : List l.L) (f : Id → Bool) (twice : Bool) (o : IterOpts) :
    Option (List (List l.L × Id) × Except Err Heap) :=
  if o.self && !f x then some ([], .ok h) else
  let me := if o.self then [(pfx, x)] else []
  if h.kids x = [] then some (if twice then me ++ me else me, .ok h) else
  match l.enter h x with
  | .error e => some (if o.up || o.reverse then [] else me, .error e)
  | .ok lv =>
    let s : PSt l := ⟨h, [.it (chOf o.reverse h x)], [lv]⟩
    let fin : List (List l.L × Id) × Except Err (PSt l) → List (List l.L × Id) × Except Err Heap := fun r =>
      match r.2 with
      | .ok s' => (if o.up || o.reverse then r.1 ++ me else me ++ r.1 ++ (if twice then me else []), .ok s'.h)
      | .error e => (if o.up || o.reverse then r.1 else me ++ r.1, .error e)
    if o.up then (gen (postPStep l o.reverse f pfx) n s).map fin else (gen (prePStep l o.reverse f pfx) n s).map fin

/-- `list(x.deep.idx_paths(filter_method, options))` (itree_indepth.py 916-978) and the heap afterwards -/
def idxPaths (n : Nat) (h : Heap) (x : Id) (f : Option (Id → Bool)) (options : Nat) : Option (List (List Int × Id) × Except Err Heap) :=
  let o := IterOpts.ofInt options
  let r := h.idxPath x
  match r.2 with
  | .error e => some ([], .error e)
  | .ok pfx =>
    match f with
    | none => pathHelper (idxLab o.reverse) n r.1 x pfx (fun _ => true) false o
    | some f =>
      if o.filterAny then (pathHelper (idxLab o.reverse) n r.1 x pfx (fun _ => true) false o).map fun q => (q.1.filter fun e => f e.2, q.2)
      else pathHelper (idxLab o.reverse) n r.1 x pfx f false o

/-- `list(x.deep.tag_idx_paths(filter_method, options))` (itree_indepth.py 983-1045) and the heap afterwards -/
def tagIdxPaths (n : Nat) (h : Heap) (x : Id) (f : Option (Id → Bool)) (options : Nat) : Option (List (List TagIdx × Id) × Except Err Heap) :=
  let o := IterOpts.ofInt options
  let r := h.tagIdxPath x
  match r.2 with
  | .error e => some ([], .error e)
  | .ok pfx =>
    match f with
    | none => pathHelper (tagLab o.reverse) n r.1 x pfx (fun _ => true) false o
    | some f =>
      if o.filterAny then (pathHelper (tagLab o.reverse) n r.1 x pfx (fun _ => true) false o).map fun q => (q.1.filter fun e => f e.2, q.2)
      else pathHelper (tagLab o.reverse) n r.1 x pfx f (!o.up && !o.reverse) o

/-! ### levels -/

/-- the loop of `_siblings_plus` and `_siblings_plus_reverse` (itree_indepth_siblings.py 20-99) for `level ≥ 1`; the test `item is not itree` without SELF
is the parameter `skip` -/
def sibStep (ch : Id → List Id) (level : Nat) (skip : Id → Bool) (st : List (List Id)) : GStep (List (List Id)) Id :=
  match st with
  | [] => .done
  | [] :: st => .more [] st
  | (x :: xs) :: r =>
    if st.length = level then .more (if skip x then [] else [x]) (xs :: r)
    else .more [] (if ch x = [] then xs :: r else ch x :: xs :: r)

/-- `list(x.deep.siblings(level, options))` for `level ≥ 0` (itree_indepth_siblings.py 19-100) -/
def siblingsPlus (n : Nat) (h : Heap) (x : Id) (level : Nat) (rev self : Bool) : Option (List Id) :=
  if level = 0 then some (if self then [x] else [])
  else (gen (sibStep (chOf rev h) level fun y => !self && y == x) n [chOf rev h x]).map (·.1)

/-- the elements of `l` in order, each only once (itree_indepth_siblings.py 103-148) -/
def firsts : List Id → List Id → List Id
  | [], _ => []
  | y :: ys, seen => if y ∈ seen then firsts ys seen else y :: firsts ys (y :: seen)

/-- `list(x.deep.siblings(level, options))` for a negative level `-k` (itree_indepth_siblings.py 101-282); `multi`: option MULTIPLE. `ancestors[level]` for the
leaves below `x`; the test `l >= self_level` is always true. -/
def siblingsMinus (n : Nat) (h : Heap) (x : Id) (k : Nat) (rev self multi : Bool) : Option (List Id) :=
  let leaves := (gen (preStep (chOf rev h) fun _ => true) n [chOf rev h x]).map fun r => r.1.filter fun y => h.kids y = []
  if k = 1 then leaves.map fun l => l.filter fun y => self || y != x
  else leaves.map fun l =>
    let hits := (l.filterMap fun y => let a := h.ancestors y ++ [y]
      if (h.level x) ≤ a.length ∧ k ≤ a.length then a[a.length - k]? else none).filter fun y => self || y != x
    if multi then hits else firsts hits []

/-- the loop of `max_depth` (itree_main.py 640-666): `d` counts the non-empty levels -/
def maxDepthAux : Nat → Heap → List Id → Nat → Option Nat
  | 0, _, _, _ => none
  | n + 1, h, items, d => if items = [] then some (d - 1) else maxDepthAux n h (items.flatMap h.kids) (d + 1)

/-- `x.max_depth` (itree_main.py 640-666) -/
def maxDepth (n : Nat) (h : Heap) (x : Id) : Option Nat := if h.kids x = [] then some 0 else maxDepthAux n h [x] 0

end ITree
