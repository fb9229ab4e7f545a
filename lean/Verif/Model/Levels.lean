import Verif.Model.Deep
import Verif.Model.Query
/-
Level iteration (itree_indepth.py 643-913, itree_indepth_helpers/itree_indepth_levels.py 58-98), the bottom-up level queries (itree_main.py 668-752), the size comparisons of
`deep` (itree_indepth.py 240-294) and `deep.iter_family_items` (itree_indepth.py 1047-1095).
-/
namespace ITree

/-- the attributes of the class `ITER` (itree_helpers.py 396-408) with their bits -/
def iterBits : List (String × Nat) := [("DOWN", 1), ("UP", 2), ("REVERSE", 4), ("SELF", 8), ("FILTER_ANY", 16), ("MULTIPLE", 32)]

/-- `ITER.<name>` (itree_helpers.py 396-408): AttributeError for an unknown name -/
def iterAttr (name : String) : Except Err Nat := match iterBits.lookup name with | some b => .ok b | none => .error .attribute

/-- the option bits of `siblings` and `levels`; any other bit raises AttributeError (itree_indepth.py 679-680, 725-726; itree_helpers.py 436-445) -/
structure LOpts where
  rev : Bool := false
  self : Bool := false
  multi : Bool := false
  deriving DecidableEq

/-- the check of the options (`option & ~expected`) and their decoding (itree_indepth.py 679-685, itree_helpers.py 436-445) -/
def LOpts.ofInt (n : Nat) : Except Err LOpts :=
  if n.testBit 0 || n.testBit 1 || n.testBit 4 || decide (64 ≤ n) then .error .attribute else .ok ⟨n.testBit 2, n.testBit 3, n.testBit 5⟩

/-- `list(x.deep.siblings(level, options))` (itree_indepth.py 643-685; the tables of the helpers itree_indepth_iter.py 17-29) -/
def siblings (n : Nat) (h : Heap) (x : Id) (level : Int) (o : LOpts) : Option (List Id) :=
  if level < 0 then siblingsMinus n h x level.natAbs o.rev o.self o.multi else siblingsPlus n h x level.toNat o.rev o.self

/-- One pass `for item in siblings:` of `levels` (itree_indepth.py 747-901; `up`: step > 0): what is yielded, the new `stop_items` and `yielded_items`, and whether the pass was left with
`break` (only for step ≤ 0 without MULTIPLE).  The `stop_items.add(itree.parent)` of 825 and 871 puts an item into a set of numbers and has no effect. -/
def levPass (up : Bool) (o : LOpts) (ok : Bool) (h : Heap) (x : Id) : List Id → List Id → List Id → List Id × List Id × List Id × Bool
  | [], stop, yielded => ([], stop, yielded, false)
  | y :: ys, stop, yielded =>
    let stopped := decide (y ∈ stop)
    let stop1 := if stopped then h.kids y ++ stop else stop
    let hit := !stopped && ok && (if o.multi then o.self || y != x else decide (y ∉ yielded))
    let yielded1 := if hit && !o.multi then y :: yielded else yielded
    let stop2 := if up && decide (h.kids y = []) then y :: stop1 else stop1
    let out := if hit then [y] else []
    if !up && !o.multi && y == x then (out, stop2, yielded1, true)
    else let r := levPass up o ok h x ys stop2 yielded1; (out ++ r.1, r.2.1, r.2.2.1, r.2.2.2)

/-- local variables of the `while items_found` loop of `levels`; `fresh`: the generator `siblings` is not yet exhausted (itree_indepth.py 743-901) -/
structure LevSt where
  cnt : Int
  ok : Bool
  fresh : Bool
  stop : List Id
  yielded : List Id

/-- One round of `while items_found` (itree_indepth.py 743-901); `none`: the loop has ended.  With step > 0 and MULTIPLE without SELF the three lines that go to the next level stand behind the
loop (799-801): the round is repeated with the exhausted generator.  Step 0: ZeroDivisionError (here `runtime`).  When `siblings` has not ended within `n` rounds neither has this. -/
def levStep (n : Nat) (h : Heap) (x : Id) (start step : Int) (o : LOpts) : Option LevSt → GStep (Option LevSt) Id
  | none => .done
  | some s =>
    match siblings n h x s.cnt o with
    | none => .more [] (some s)
    | some l =>
      let items := if s.fresh then l else []
      let r := levPass (decide (0 < step)) o s.ok h x items s.stop s.yielded
      let found := !r.2.2.2 && (s.cnt == start || !items.isEmpty)
      if decide (0 < step) && o.multi && !o.self then
        .more r.1 (if found then some { s with fresh := false, stop := r.2.1, yielded := r.2.2.1 } else none)
      else if step = 0 then (if r.1 = [] then .fail .runtime else .more r.1 none)
      else
        let cnt := if 0 < step then s.cnt + 1 else s.cnt - 1
        .more r.1 (if found then some ⟨cnt, decide (step ∣ cnt - start), true, r.2.1, r.2.2.1⟩ else none)

/-- `stop_items` at the beginning (itree_indepth.py 737-740) -/
def stopItems (n : Nat) (h : Heap) (x : Id) (o : LOpts) : Option Int → Option (List Id)
  | none => some []
  | some e => siblings n h x e o

/-- `list(x.deep.levels(slice(start, stop, step), options))` (itree_indepth.py 725-901).  (Simplified: step 0 – the exception after yielded items is not shown.) -/
def levelsSlice (n : Nat) (h : Heap) (x : Id) (sl : PySlice) (o : LOpts) : Option (List Id) :=
  if sl.start = none ∧ sl.stop = none ∧ sl.step = none then some [] else
  let start := sl.start.getD 0
  let step := sl.step.getD 1
  match stopItems n h x o sl.stop with
  | none => none
  | some stop => (gen (levStep n h x start step o) n (some ⟨start, true, true, stop, if o.multi || o.self then [] else [x]⟩)).map (·.1)

/-- Everything yielded by `_levels_via_siblings_iterable` (itree_indepth_levels.py 58-98): `last_level`, `start_level` are the local variables.  The call of `levels` gets no options. -/
def levelsVia (n : Nat) (h : Heap) (x : Id) (o : LOpts) : List Int → Int → Option Int → Option (List Id)
  | [], last, startL => flush last startL
  | l :: ls, last, startL =>
    if last + 1 = l then levelsVia n h x o ls l (some (startL.getD l))
    else do
      let a ← flush last startL
      let b ← siblings n h x l o
      let c ← levelsVia n h x o ls last none
      return a ++ b ++ c
where
  /-- the section that is delivered before a level that does not continue it and at the end (itree_indepth_levels.py 78-90, 91-98) -/
  flush (last : Int) : Option Int → Option (List Id)
    | none => some []
    | some s => if s = last then siblings n h x last o else levelsSlice n h x ⟨some s, some last, some (if s < last then 1 else -1)⟩ {}

/-- `list(x.deep.levels(levels, options))` for an iterable of levels (itree_indepth.py 902-913) -/
def levelsList (n : Nat) (h : Heap) (x : Id) (levels : List Int) (o : LOpts) : Option (List Id) :=
  (levelsVia n h x o levels (-1) none).map fun l => if o.multi then l else firsts l []

/-! ### bottom-up level queries -/

/-- `negative_levels` (itree_main.py 668-682): the argument `ITER.INNER` is evaluated before the call -/
def negativeLevels (n : Nat) (h : Heap) (x : Id) : Option (Except Err (List Int)) :=
  match iterAttr "INNER" with
  | .error e => some (.error e)
  | .ok b => match LOpts.ofInt b with
    | .error e => some (.error e)
    | .ok o => (siblings n h x (-1) o).map fun l => .ok (l.map fun y => (h.level x : Int) - h.level y)

/-- `equal_negative_level` (itree_main.py 684-701) -/
def equalNegativeLevel (n : Nat) (h : Heap) (x : Id) (t : Int) : Option (Except Err Bool) :=
  match iterAttr "INNER" with
  | .error e => some (.error e)
  | .ok b => match LOpts.ofInt b with
    | .error e => some (.error e)
    | .ok o => (siblings n h x (-1) o).map fun l => .ok (l.any fun y => (h.level y : Int) - h.level x == t.natAbs)

/-- `in_negative_level` (itree_main.py 703-752) -/
def inNegativeLevel (n : Nat) (h : Heap) (x : Id) (t : Int) (equal any : Bool) : Option (Except Err Bool) :=
  if h.kids x = [] then some (.ok (equal && decide (t.natAbs = 1))) else
  match iterAttr "INNER" with
  | .error e => some (.error e)
  | .ok b => match LOpts.ofInt b with
    | .error e => some (.error e)
    | .ok o => (siblings n h x (-1) o).map fun l =>
      let d := fun y => (h.level y : Int) - h.level x
      .ok (if any then l.all fun y => if equal then decide (¬ d y < t.natAbs) else decide (¬ d y ≤ t.natAbs)
        else l.any fun y => if equal then decide (d y ≥ t.natAbs) else decide (d y > t.natAbs))

/-! ### sizes -/

/-- `x.deep < m`, `<=`, `>`, `>=` where `m = len(other)` (itree_indepth.py 240-294) -/
def deepLt (n : Nat) (h : Heap) (x : Id) (m : Nat) : Option Bool := (deepLen n h x).map fun k => decide (k < m)
/-- `x.deep <= m`, itree_indepth.py 254-266 -/
def deepLe (n : Nat) (h : Heap) (x : Id) (m : Nat) : Option Bool := (deepLen n h x).map fun k => decide (k ≤ m)
/-- `x.deep > m`, itree_indepth.py 268-280 -/
def deepGt (n : Nat) (h : Heap) (x : Id) (m : Nat) : Option Bool := (deepLen n h x).map fun k => decide (k > m)
/-- `x.deep >= m`, itree_indepth.py 282-294 -/
def deepGe (n : Nat) (h : Heap) (x : Id) (m : Nat) : Option Bool := (deepLen n h x).map fun k => decide (k ≥ m)

/-! ### families in depth -/

/-- the entries of the stack of `deep.iter_family_items`: the tuple `(None,)`, or a `tags()` generator with its remaining tags (itree_indepth.py 1047-1095) -/
inductive FamFr where
  | tup
  | tags (l : List Tag)

/-- the loop `for item in family_iters[-1]` (itree_indepth.py 1084-1091): the items up to the first one with children, and that one -/
def famRun (h : Heap) : List Id → List Id × Option Id
  | [] => ([], none)
  | y :: ys => if h.kids y = [] then let r := famRun h ys; (y :: r.1, r.2) else ([y], some y)

/-- local variables of `deep.iter_family_items` (itree_indepth.py 1047-1095) -/
structure FamSt where
  heap : Heap
  iters : List FamFr
  items : List Id

/-- One round of `while iterators` cut at every tag (itree_indepth.py 1075-1095).  At the tuple the generator deletes the tuple, the item, and – when the loop over the tuple ends – one more
iterator.  (Simplified: `tags()` of a child is evaluated when it is pushed and not tag by tag; an item tagged with the object `None` does not occur.) -/
def famStep (s : FamSt) : GStep FamSt Id :=
  match s.iters, s.items with
  | [], _ => .done
  | .tup :: st, items => match st with | [] => .fail .index | _ :: st' => .more [] { s with iters := st', items := items.tail }
  | .tags [] :: st, _ => .more [] { s with iters := st }
  | .tags (_ :: _) :: _, [] => .fail .index
  | .tags (t :: ts) :: st, p :: ps =>
    match ((s.heap.boundFams p).getD []).lookup t with
    | none => .fail .key
    | some fam =>
      let r := famRun s.heap fam
      match r.2 with
      | none => .more r.1 { s with iters := .tags ts :: st }
      | some c =>
        let q := tagsOf s.heap c false
        match q.2 with
        | .error e => .fail e
        | .ok l => .more r.1 ⟨q.1, .tags l :: .tup :: .tags ts :: st, c :: p :: ps⟩

/-- `list(x.deep.iter_family_items())` (itree_indepth.py 1047-1095; `order_last` is not used by the code) -/
def deepFamilyItems (n : Nat) (h : Heap) (x : Id) : Option (List Id × Except Err FamSt) :=
  if h.kids x = [] then some ([], .ok ⟨h, [], []⟩) else
  let q := tagsOf h x false
  match q.2 with
  | .error e => some ([], .error e)
  | .ok l => gen famStep n ⟨q.1, [.tags l], [x]⟩

end ITree
