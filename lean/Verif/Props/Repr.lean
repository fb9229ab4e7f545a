import Verif.Proofs.Repr
import Verif.Props.Serialize
/-
C57: `eval(repr(t))` and unpickling rebuild the tree.

`L` is what Python does with the tags and values (their `repr` and the evaluation of it); all statements hold for every such `L`.
-/
namespace ITree

variable {ms ms2 : ModelSet} {h h2 : Heap}

/-- what both ways promise: in the state `h2` nested constructor calls were evaluated, the result is the parentless tree of new items below `y` in `h3` with shape `S`; nothing existing changed -/
structure Rebuilt (ms : ModelSet) (h2 h3 : Heap) (y : Id) (S : Shape) : Prop where
  reach : Reach ms h3
  same : Unchanged h2 h3
  root : h3.par y = none
  fresh : ∀ j, Below h3 y j → h2.next ≤ j
  shape : (h3.tree y).shape = S

theorem rebuilt_of (H2 : Reach ms2 h2) (e : Shape) (q : e.Quiet) : Rebuilt ms2 h2 (rebuild h2 e).1 (rebuild h2 e).2 e.restored := by
  have l2 := rebuild_spec (made_law ms2 h2) e q (Made.start H2)
  obtain ⟨T, t1, t2, t3, t4, t5, t6⟩ := l2.tree ((rebuild h2 e).2, e.restored) (by simp)
  simp only at t1 t2 t4 t5
  have tt : (rebuild h2 e).1.tree (rebuild h2 e).2 = T := by rw [← t1]; exact t3.tree l2.reach.core.wf
  exact ⟨l2.reach, l2.same, t4, fun j hj => t6 j ((below_iff_ids t3 j).1 (by rw [t1]; exact hj)), by rw [tt]; exact t2⟩

mutual
theorem bare_restored : ∀ s : Shape, s.bare.restored = s.restored
  | .node t v f l ks => by
    simp only [Shape.bare, Shape.restored, bare_restoredL ks]
    cases l <;> rfl
theorem bare_restoredL : ∀ l : List Shape, Shape.restoredL (Shape.bareL l) = Shape.restoredL l
  | [] => rfl
  | k :: ks => by simp only [Shape.bareL, Shape.restoredL, bare_restored k, bare_restoredL ks]
end

theorem quietL_iff (l : List Shape) : Shape.QuietL l ↔ ∀ k ∈ l, k.Quiet := by
  induction l with
  | nil => simp [Shape.QuietL]
  | cons k l ih => simp [Shape.QuietL, ih]

/-- links on link roots that are not marked for loading -/
theorem bare_quiet {T : Tree} (R : Rep h T) : (∀ y ∈ T.ids, ∀ lk, (h.node y).link = some lk → (h.flags y).has Flags.linkRoot = true ∧ (h.flags y).has Flags.loadLinks = false) → T.shape.bare.Quiet := by
  induction T using Tree.ind with
  | H i t v f l ks ih =>
    intro H
    simp only [Tree.ids_node, List.mem_cons, Tree.mem_idsL] at H
    obtain ⟨e1, e2, e3, e4, -⟩ := id R
    have hi := H i (.inl rfl)
    rw [e4, e3] at hi
    simp only [Tree.shape, Shape.bare, Shape.Quiet, shapeL_eq, bareL_eq, List.map_map, quietL_iff, List.mem_map]
    refine ⟨fun lk e => ?_, ?_⟩
    · cases l with
      | none => simp at e
      | some lk' =>
        simp only [Option.map_some, Option.some.injEq] at e
        subst e
        exact ⟨rfl, hi lk' rfl⟩
    · rintro _ ⟨k, hk, rfl⟩
      exact ih k hk (R.kid hk) fun y hy => H y (.inr ⟨k, hk, hy⟩)

/-- The tree below `x` can be printed so that it can be read: the tags, values and links are in `okTag`, `okVal` and `okLink`; items with children are not deeper than a fifth of the recursion limit; links belong
to link roots, are not loaded, and the link roots are not marked for loading. -/
def Printable (okTag : Tag → Prop) (okVal : Val → Prop) (okLink : Option String → List Tag → Prop) (lim : Nat) (h : Heap) (x : Id) : Prop :=
  ∀ y, Below h x y → (h.tag y ≠ .noTag → okTag (h.tag y)) ∧ ((h.node y).value ≠ .noValue → okVal (h.node y).value) ∧ (h.kids y ≠ [] → 5 * h.level y ≤ lim) ∧
    ∀ lk, (h.node y).link = some lk → h.isLinkRoot y = true ∧ (h.flags y).has Flags.loadLinks = false ∧ lk.cover = none ∧ lk.loaded = false ∧ okLink lk.file lk.path

/-- C57 (repr): for every reachable state and every printable item, `repr` delivers a text; `eval` of this text – in any reachable state – builds a new parentless tree of new items with the tags, values, order,
structure and links (file and path) of the printed one; flags as for loading (C33): the flags read-only-tree and load-links are pushed down.  Nothing existing changes. -/
theorem C57_repr_eval (H : Reach ms h) (H2 : Reach ms2 h2) {L : Literals} {okTag : Tag → Prop} {okVal : Val → Prop} {okLink : Option String → List Tag → Prop} (E : L.Evaluable okTag okVal okLink) (lim : Nat) {x : Id}
    (hp : Printable okTag okVal okLink lim h x) :
    ∃ text, Delivers (fun n => reprItem L lim h n x) text ∧ ∃ h3 y, evalText L h2 text = some (h3, y) ∧ Rebuilt ms2 h2 h3 y (h.tree x).shape.restored := by
  have R := tree_rep H.core.wf H.core.forest x
  have ei := tree_id h x
  have eb : ∀ y ∈ (h.tree x).ids, Below h x y := fun y hy => by have := (below_iff_ids R y).2 hy; rwa [ei] at this
  obtain ⟨text, a, b, c⟩ := repr_read E lim R fun y hy => ⟨(hp y (eb y hy)).1, (hp y (eb y hy)).2.1, (hp y (eb y hy)).2.2.1, fun lk e => ((hp y (eb y hy)).2.2.2 lk e).2.2⟩
  rw [ei] at b
  refine ⟨text, ⟨_, b⟩, (rebuild h2 (h.tree x).shape.bare).1, (rebuild h2 (h.tree x).shape.bare).2, ?_, ?_⟩
  · have := c (text.length + 1) (by omega) []
    rw [List.append_nil] at this
    simp only [evalText, this]
  · have := rebuilt_of H2 (h.tree x).shape.bare (bare_quiet R fun y hy lk e => ⟨((hp y (eb y hy)).2.2.2 lk e).1, ((hp y (eb y hy)).2.2.2 lk e).2.1⟩)
    rwa [bare_restored] at this

/-- C57 (repr, same tree): when moreover every item carries the deep flags of its parent and the links hold nothing but file and path, the tree built by `eval(repr(x))` has exactly the shape – tags, values, flags,
links, order, nesting – of the printed one. -/
theorem C57_repr_same_partial (H : Reach ms h) (H2 : Reach ms2 h2) {L : Literals} {okTag : Tag → Prop} {okVal : Val → Prop} {okLink : Option String → List Tag → Prop} (E : L.Evaluable okTag okVal okLink) (lim : Nat) {x : Id}
    (hp : Printable okTag okVal okLink lim h x) (hl : ∀ y, Below h x y → ∀ lk, (h.node y).link = some lk → lk = { file := lk.file, path := lk.path })
    (hf : ∀ y, Below h x y → ∀ c ∈ h.kids y, h.flags c ||| (h.flags y &&& Flags.deepMask) = h.flags c) :
    ∃ text, Delivers (fun n => reprItem L lim h n x) text ∧ ∃ h3 y, evalText L h2 text = some (h3, y) ∧ Rebuilt ms2 h2 h3 y (h.tree x).shape := by
  have R := tree_rep H.core.wf H.core.forest x
  have ei := tree_id h x
  have eb : ∀ y ∈ (h.tree x).ids, Below h x y := fun y hy => by have := (below_iff_ids R y).2 hy; rwa [ei] at this
  have C : (h.tree x).shape.closed 0#6 := closed_of R (by simp) (fun y hy => by
    have q : ∀ lk, (h.node y).link = some lk → lk = { file := lk.file, path := lk.path } ∧ (h.flags y).has Flags.linkRoot = true ∧ (h.flags y).has Flags.loadLinks = false := fun lk e =>
      ⟨hl y (eb y hy) lk e, ((hp y (eb y hy)).2.2.2 lk e).1, ((hp y (eb y hy)).2.2.2 lk e).2.1⟩
    exact quiet_link q) (fun y hy => hf y (eb y hy))
  have e := closed_restored _ (g := 0#6) (by decide) C
  rw [Shape.or_zero] at e
  have := C57_repr_eval H H2 E lim hp
  rwa [e] at this

mutual
/-- the links of the link roots, as arguments -/
def Shape.kept : Shape → Shape
  | .node t v f l ks => .node t v f (reduceLink f l) (Shape.keptL ks)
def Shape.keptL : List Shape → List Shape
  | [] => []
  | k :: ks => k.kept :: Shape.keptL ks
end

theorem keptL_eq (l : List Shape) : Shape.keptL l = l.map Shape.kept := by
  induction l with
  | nil => rfl
  | cons k l ih => simp [Shape.keptL, ih]

mutual
theorem kept_restored : ∀ s : Shape, s.kept.restored = s.restored
  | .node t v f l ks => by
    simp only [Shape.kept, Shape.restored, kept_restoredL ks, reduceLink]
    split
    · cases l <;> rfl
    · rfl
theorem kept_restoredL : ∀ l : List Shape, Shape.restoredL (Shape.keptL l) = Shape.restoredL l
  | [] => rfl
  | k :: ks => by simp only [Shape.keptL, Shape.restoredL, kept_restored k, kept_restoredL ks]
end

/-- the arguments of siblings -/
theorem reduce_items {g : Id → Option Shape} (link : Bool) (ts : List Tree) : ∀ (add : Bool) (all : List Tag), (∀ k ∈ ts, g k.id = some (k.stored fun _ => true).kept) →
    allSome (reduceKid g) (Tree.itemsL link add all ts) = some (Shape.keptL (Tree.storedL (fun _ => true) link add all ts)) := by
  induction ts with
  | nil => intro _ _ _; rfl
  | cons k ts ih =>
    intro add all hg
    simp only [Tree.itemsL, Tree.storedL, if_true, keptL_eq] at ih ⊢
    split
    · simp only [allSome, reduceKid, ih false _ fun k hk => hg k (by simp [hk]), List.map_append, List.map_cons, List.map_nil, List.cons_append, List.nil_append, Shape.kept, Shape.keptL]
      rfl
    · simp only [allSome, reduceKid, ih true _ fun k hk => hg k (by simp [hk]), hg k (by simp), List.map_append, List.map_cons, List.map_nil, List.cons_append, List.nil_append]

/-- what `__reduce__` hands to pickle, for a represented tree -/
theorem reduce_tree {T : Tree} : Rep h T → ∀ n, T.ids.length ≤ n → reduceItem h n T.id = some (T.stored fun _ => true).kept := by
  induction T using Tree.ind with
  | H i t v f l ks ih =>
    intro R n hn
    rw [Tree.ids_node, List.length_cons] at hn
    obtain ⟨n, rfl⟩ : ∃ m, n = m + 1 := ⟨n - 1, by omega⟩
    have e := reduce_items (g := reduceItem h n) (f.has Flags.linkRoot) ks false [] fun k hk => ih k hk (R.kid hk) n (by have := ids_le_idsL hk; omega)
    simp only [reduceItem, dumpKids_eq R]
    simp only [Tree.flags, Tree.kids, e]
    obtain ⟨h1, h2, h3, h4, -⟩ := R
    simp only [Tree.id, h1, h2, h3, h4, Option.map_some, Tree.stored, Shape.kept]

/-- pickled arguments load no link -/
theorem storedL_quiet (link : Bool) (ts : List Tree) : ∀ (add : Bool) (all : List Tag), (∀ k ∈ ts, (k.stored fun _ => true).kept.Quiet) → Shape.QuietL (Shape.keptL (Tree.storedL (fun _ => true) link add all ts)) := by
  induction ts with
  | nil => intro _ _ _; trivial
  | cons k ts ih =>
    intro add all hk
    simp only [Tree.storedL, if_true, keptL_eq] at ih ⊢
    split
    · exact ⟨⟨fun lk e => by simp [reduceLink, Flags.has, Flags.placeholder, Flags.linkRoot] at e, trivial⟩, ih _ _ fun k h => hk k (by simp [h])⟩
    · exact ⟨hk k (by simp), ih _ _ fun k h => hk k (by simp [h])⟩

theorem stored_quiet {T : Tree} (R : Rep h T) : (∀ y ∈ T.ids, (h.flags y).has Flags.linkRoot = true → (h.flags y).has Flags.loadLinks = false) → (T.stored fun _ => true).kept.Quiet := by
  induction T using Tree.ind with
  | H i t v f l ks ih =>
    intro H
    simp only [Tree.ids_node, List.mem_cons, Tree.mem_idsL] at H
    have e3 : h.flags i = f := R.2.2.1
    have hi := H i (.inl rfl)
    rw [e3] at hi
    refine ⟨fun lk e => ?_, storedL_quiet _ ks _ _ fun k hk => ih k hk (R.kid hk) fun y hy => H y (.inr ⟨k, hk, hy⟩)⟩
    simp only [reduceLink] at e
    split at e
    · next c =>
      refine ⟨?_, c, hi c⟩
      cases l with
      | none => simp at e
      | some lk' => simp only [Option.map_some, Option.some.injEq] at e; subst e; rfl
    · cases e

/-- C57 (pickle; what comes back, link roots included): for every reachable state and every item below which no link root is marked for loading: pickling delivers nested class/argument pairs, unpickling them – in any
reachable state – builds a new parentless tree of new items; nothing existing changes.  The new tree is what a dump would store (C33: below link roots, linked children may be replaced by placeholders), link roots with file and path
of their links; the flags read-only-tree and load-links are pushed down. -/
theorem C57_pickle_stored (H : Reach ms h) (H2 : Reach ms2 h2) {x : Id} (nl : ∀ y, Below h x y → h.isLinkRoot y = true → (h.flags y).has Flags.loadLinks = false) :
    ∃ e, Delivers (fun n => reduceItem h n x) e ∧ Rebuilt ms2 h2 (rebuild h2 e).1 (rebuild h2 e).2 ((h.tree x).stored fun _ => true).restored := by
  have R := tree_rep H.core.wf H.core.forest x
  have ei := tree_id h x
  have eb : ∀ y ∈ (h.tree x).ids, Below h x y := fun y hy => by have := (below_iff_ids R y).2 hy; rwa [ei] at this
  have := reduce_tree R
  rw [ei] at this
  refine ⟨_, ⟨_, this⟩, ?_⟩
  have := rebuilt_of H2 _ (stored_quiet R fun y hy => nl y (eb y hy))
  rwa [kept_restored] at this

/-- C57 (pickle): when moreover the children of the link roots are local, the tags, values, order, structure and links (file and path) are those of the original; the flags read-only-tree and load-links are pushed down. -/
theorem C57_pickle (H : Reach ms h) (H2 : Reach ms2 h2) {x : Id} (nl : ∀ y, Below h x y → h.isLinkRoot y = true → (h.flags y).has Flags.loadLinks = false) (lk : ∀ y, Below h x y → LocalKids h y) :
    ∃ e, Delivers (fun n => reduceItem h n x) e ∧ Rebuilt ms2 h2 (rebuild h2 e).1 (rebuild h2 e).2 (h.tree x).shape.restored := by
  have R := tree_rep H.core.wf H.core.forest x
  have ei := tree_id h x
  have eb : ∀ y ∈ (h.tree x).ids, Below h x y := fun y hy => by have := (below_iff_ids R y).2 hy; rwa [ei] at this
  have e := stored_local (fun _ => true) R (by rw [prune_all]; exact fun y hy => lk y (eb y hy))
  rw [prune_all] at e
  have := C57_pickle_stored H H2 nl
  rwa [e] at this

/-- C57 (pickle, same tree): exactly the same shape when every item carries the deep flags of its parent and links (on link roots only) hold nothing but file and path -/
theorem C57_pickle_same_partial (H : Reach ms h) (H2 : Reach ms2 h2) {x : Id} (nl : ∀ y, Below h x y → h.isLinkRoot y = true → (h.flags y).has Flags.loadLinks = false) (lk : ∀ y, Below h x y → LocalKids h y)
    (hl : ∀ y, Below h x y → PlainLink h y) (hf : ∀ y, Below h x y → ∀ c ∈ h.kids y, h.flags c ||| (h.flags y &&& Flags.deepMask) = h.flags c) :
    ∃ e, Delivers (fun n => reduceItem h n x) e ∧ Rebuilt ms2 h2 (rebuild h2 e).1 (rebuild h2 e).2 (h.tree x).shape := by
  have R := tree_rep H.core.wf H.core.forest x
  have ei := tree_id h x
  have eb : ∀ y ∈ (h.tree x).ids, Below h x y := fun y hy => by have := (below_iff_ids R y).2 hy; rwa [ei] at this
  have C : (h.tree x).shape.closed 0#6 := closed_of R (by simp) (fun y hy => (hl y (eb y hy)).kept) (fun y hy => hf y (eb y hy))
  have e := closed_restored _ (g := 0#6) (by decide) C
  rw [Shape.or_zero] at e
  have := C57_pickle H H2 nl lk
  rwa [e] at this

/-- Disagreement: a pickled tree with a read-only root and a child that is not read-only comes back with a read-only child. -/
theorem C57_pickle_flags_wrong : ∃ e, Delivers (fun n => reduceItem loose n 0) e ∧ ((rebuild Heap.empty e).1.tree (rebuild Heap.empty e).2).shape ≠ (loose.tree 0).shape := by
  obtain ⟨e, a, b⟩ := C57_pickle loose_reach (Reach.empty (ms := ms0)) (x := 0) (fun y hy e => by rw [loose_noLinks y hy] at e; cases e) (fun y hy e => by have := loose_noLinks y hy; rw [Heap.isLinkRoot, e] at this; cases this)
  refine ⟨e, a, ?_⟩
  rw [b.shape]
  intro e
  have := congrArg (Shape.allFlags 3) e
  revert this
  decide +kernel

/-- Disagreement: of an item deeper than a fifth of the recursion limit, `repr` does not show the children: two such items (no link roots) with the same tag, value and flags are printed alike whatever their children are, so no
evaluation can give the right tree for both. -/
theorem C57_repr_deep_wrong (L : Literals) (lim n : Nat) (h h' : Heap) (x x' : Id) (hx : h.kids x ≠ []) (hx' : h'.kids x' ≠ []) (hl : lim < 5 * h.level x) (hl' : lim < 5 * h'.level x')
    (ht : h'.tag x' = h.tag x) (hv : (h'.node x').value = (h.node x).value) (hf : h'.flags x' = h.flags x) (hk : (h.node x).link = none) (hk' : (h'.node x').link = none) : reprItem L lim h' (n + 1) x' = reprItem L lim h (n + 1) x := by
  simp only [reprItem, if_neg hx, if_neg hx', if_pos hl, if_pos hl', ht, hv, hf, hk, hk', coverText]

/-- two such items: the first child of the second has one child, the first child of the first two (limit 4, level 1) -/
example : let a := run ms0 Heap.empty [.new .noTag .noValue [.val (.int 1), .val (.int 2)] 0#6, .new .noTag .noValue [.item 0] 0#6]
    let b := run ms0 Heap.empty [.new .noTag .noValue [.val (.int 1)] 0#6, .new .noTag .noValue [.item 0] 0#6]
    a.kids 0 ≠ [] ∧ b.kids 0 ≠ [] ∧ 4 < 5 * a.level 0 ∧ 4 < 5 * b.level 0 ∧ b.tag 0 = a.tag 0 ∧ b.flags 0 = a.flags 0 ∧ (a.kids 0).length ≠ (b.kids 0).length := by decide +kernel

/-! ### a concrete instance: strings in quotes -/

/-- reads `'...'` -/
def quoted (s : List Char) : Option (List Char × List Char) :=
  match s with
  | '\'' :: s => match s.dropWhile (· != '\'') with
    | _ :: r => some (s.takeWhile (· != '\''), r)
    | [] => none
  | _ => none

def quoteLit : Literals where
  tagRepr t := match t with | .str s => '\'' :: (s.toList ++ ['\'']) | _ => ['?']
  valRepr v := match v with | .str s => '\'' :: (s.toList ++ ['\'']) | _ => ['?']
  tagEval s := (quoted s).map fun r => (.str (String.ofList r.1), r.2)
  valEval s := (quoted s).map fun r => (.str (String.ofList r.1), r.2)
  linkRepr a _ := match a with | some s => '\'' :: (s.toList ++ "',[]".toList) | _ => ['?']
  linkEval s := (quoted s).bind fun r => (dropPre ",[]".toList r.2).map fun r' => ((some (String.ofList r.1), []), r')

abbrev plainStr (s : String) : Prop := '\'' ∉ s.toList
def okT (t : Tag) : Prop := ∃ s, t = .str s ∧ plainStr s
def okV (v : Val) : Prop := ∃ s, v = .str s ∧ plainStr s
def okL (a : Option String) (p : List Tag) : Prop := p = [] ∧ ∃ s, a = some s ∧ plainStr s

theorem quoted_back (s : String) (h : plainStr s) (r : List Char) : quoted ('\'' :: (s.toList ++ ['\'']) ++ r) = some (s.toList, r) := by
  have hp : ∀ c ∈ s.toList, (c != '\'') = true := fun c hc => by
    simp only [bne_iff_ne]; intro e; subst e; exact h hc
  have e : '\'' :: (s.toList ++ ['\'']) ++ r = '\'' :: (s.toList ++ '\'' :: r) := by simp
  rw [e]
  simp only [quoted]
  rw [List.dropWhile_append_of_pos hp, List.takeWhile_append_of_pos hp]
  have e1 : List.dropWhile (· != '\'') ('\'' :: r) = '\'' :: r := rfl
  have e2 : List.takeWhile (· != '\'') ('\'' :: r) = [] := rfl
  rw [e1, e2, List.append_nil]

theorem quoteLit_evaluable : quoteLit.Evaluable okT okV okL where
  tag_back := by
    rintro t ⟨s, rfl, hs⟩ c r -
    simp only [quoteLit]
    rw [quoted_back s hs]
    simp
  val_back := by
    rintro t ⟨s, rfl, hs⟩ c r -
    simp only [quoteLit]
    rw [quoted_back s hs]
    simp
  link_back := by
    rintro a p ⟨rfl, s, rfl, hs⟩ r
    simp only [quoteLit]
    have e : '\'' :: (s.toList ++ "',[]".toList) ++ ')' :: r = '\'' :: (s.toList ++ ['\'']) ++ (",[]".toList ++ ')' :: r) := by simp
    rw [e, quoted_back s hs, Option.bind_some, dropPre_self]
    simp
  tag_plain := by
    rintro t ⟨s, rfl, hs⟩ k hk r
    simp only [quoteLit, List.cons_append]
    simp only [List.mem_cons, List.not_mem_nil, or_false] at hk
    rcases hk with rfl | rfl | rfl | rfl | rfl <;> simp
  tag_comma := by rintro t ⟨s, rfl, hs⟩; simp [quoteLit]
  val_comma := by rintro t ⟨s, rfl, hs⟩; simp [quoteLit]

def reprDemo : Heap := run ms0 Heap.empty [.new (.str "a") (.str "x, y") [] 0#6, .new (.str "b") .noValue [] 0#6, .new .noTag (.str "z") [.item 0, .item 1] 0#6, .new (.str "r") .noValue [.item 2, .val (.str "w")] 0#6,
  .setTreeReadOnly 2]
theorem reprDemo_tidy : Tidy ms0 reprDemo := tidy_run _ .empty (by decide)

/-- the demo tree is printed as expected and meets the hypotheses of the theorems -/
example : reprItem quoteLit 1000 reprDemo 9 3 = some "iTree('r', subtree=[iTree(value='z', subtree=[iTree('a', value='x, y', flags=0b1), iTree('b', flags=0b1)], flags=0b1), iTree(value='w')])".toList := by decide +kernel

example : Printable okT okV okL 1000 reprDemo 3 := by
  refine below_of_tree reprDemo_tidy.reach.core.wf reprDemo_tidy.reach.core.forest ?_
  have : (reprDemo.tree 3).ids = [3, 2, 0, 1, 4] := by decide +kernel
  rw [this]
  intro y hy
  have nl : ∀ y ∈ [3, 2, 0, 1, 4], (reprDemo.node y).link.isNone := by decide +kernel
  have ll : ∀ lk, (reprDemo.node y).link = some lk → reprDemo.isLinkRoot y = true ∧ (reprDemo.flags y).has Flags.loadLinks = false ∧ lk.cover = none ∧ lk.loaded = false ∧ okL lk.file lk.path := fun lk e => by
    have := nl y hy; rw [e] at this; cases this
  simp only [List.mem_cons, List.not_mem_nil, or_false] at hy
  rcases hy with rfl | rfl | rfl | rfl | rfl
  · exact ⟨fun _ => ⟨"r", by decide +kernel, by decide +kernel⟩, fun h => absurd rfl h, by decide +kernel, ll⟩
  · exact ⟨fun h => absurd (by decide +kernel) h, fun _ => ⟨"z", rfl, by decide +kernel⟩, by decide +kernel, ll⟩
  · exact ⟨fun _ => ⟨"a", by decide +kernel, by decide +kernel⟩, fun _ => ⟨"x, y", rfl, by decide +kernel⟩, by decide +kernel, ll⟩
  · exact ⟨fun _ => ⟨"b", by decide +kernel, by decide +kernel⟩, fun h => absurd rfl h, by decide +kernel, ll⟩
  · exact ⟨fun h => absurd (by decide +kernel) h, fun _ => ⟨"w", rfl, by decide +kernel⟩, by decide +kernel, ll⟩

example : (∀ y ∈ (reprDemo.tree 3).ids, ∀ c ∈ reprDemo.kids y, reprDemo.flags c ||| (reprDemo.flags y &&& Flags.deepMask) = reprDemo.flags c) := by decide +kernel

/-- a tree with a link root that has a local child -/
def reprLinkDemo : Heap := run ms0 Heap.empty [.newLink (.str "k") .noValue [.val (.str "w")] 0#6 (some "f.itz") [], .new (.str "r") .noValue [.item 0] 0#6]
theorem reprLinkDemo_tidy : Tidy ms0 reprLinkDemo := tidy_run _ .empty (by decide)

example : reprItem quoteLit 1000 reprLinkDemo 9 2 = some "iTree('r', subtree=[iTree('k', subtree=[iTree(value='w')], link=iTLink('f.itz',[]), flags=0b100000)])".toList := by decide +kernel

/-- it meets the hypotheses of the theorems on repr and pickle -/
example : Printable okT okV okL 1000 reprLinkDemo 2 ∧ (∀ y, Below reprLinkDemo 2 y → PlainLink reprLinkDemo y) ∧ (∀ y, Below reprLinkDemo 2 y → LocalKids reprLinkDemo y) ∧
    (∀ y, Below reprLinkDemo 2 y → reprLinkDemo.isLinkRoot y = true → (reprLinkDemo.flags y).has Flags.loadLinks = false) ∧
    ∀ y, Below reprLinkDemo 2 y → ∀ c ∈ reprLinkDemo.kids y, reprLinkDemo.flags c ||| (reprLinkDemo.flags y &&& Flags.deepMask) = reprLinkDemo.flags c := by
  have W := reprLinkDemo_tidy.reach.core.wf
  have F := reprLinkDemo_tidy.reach.core.forest
  have B := fun {P : Id → Prop} => below_of_tree (P := P) W F (x := 2)
  have ids : (reprLinkDemo.tree 2).ids = [2, 0, 1] := by decide +kernel
  rw [ids] at B
  refine ⟨B ?_, B ?_, B ?_, B (by decide +kernel), B (by decide +kernel)⟩
  · intro y hy
    simp only [List.mem_cons, List.not_mem_nil, or_false] at hy
    rcases hy with rfl | rfl | rfl
    · exact ⟨fun _ => ⟨"r", by decide +kernel, by decide +kernel⟩, fun h => absurd rfl h, by decide +kernel, fun lk e => by cases e⟩
    · refine ⟨fun _ => ⟨"k", by decide +kernel, by decide +kernel⟩, fun h => absurd rfl h, by decide +kernel, fun lk e => ?_⟩
      cases e
      exact ⟨by decide +kernel, by decide +kernel, rfl, rfl, rfl, "f.itz", rfl, by decide +kernel⟩
    · exact ⟨fun h => absurd (by decide +kernel) h, fun _ => ⟨"w", rfl, by decide +kernel⟩, by decide +kernel, fun lk e => by cases e⟩
  · intro y hy
    simp only [List.mem_cons, List.not_mem_nil, or_false] at hy
    rcases hy with rfl | rfl | rfl
    · intro l e; cases e
    · intro l e; cases e; exact ⟨by decide +kernel, rfl⟩
    · intro l e; cases e
  · intro y hy
    have : ∀ y ∈ [2, 0, 1], ∀ c ∈ reprLinkDemo.kids y, (reprLinkDemo.flags c).has Flags.linked = false := by decide +kernel
    exact fun _ => this y hy

end ITree
