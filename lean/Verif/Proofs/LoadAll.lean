import Verif.Proofs.FindLink
import Verif.Spec.History
import Verif.Proofs.Climb
import Verif.Proofs.LoadLinks6
/-
`load_links` on an item that is no link root: all link roots below are loaded, one after the other.
-/
namespace ITree

theorem quiet_walk_all (g : Heap) : ∀ (ks : List Tree) (c i : Nat), RepL g ks → (∀ x ∈ Tree.idsL ks, g.isLinkRoot x = false) → (g.kids c).drop i = ks.map Tree.id →
    ∃ m, ∀ env force n k st b, loadBelow env force n (m + k) g ((c, i) :: st) b = loadBelow env force n k g st b
  | [], c, i, _, _, hd => by
    refine ⟨1, fun env force n k st b => ?_⟩
    have : (g.kids c)[i]? = none := by
      rw [List.map_nil, List.drop_eq_nil_iff] at hd
      exact List.getElem?_eq_none hd
    rw [Nat.add_comm, loadBelow, this]
  | .node x t v f l kk :: ks, c, i, R, hn, hd => by
    obtain ⟨R1, R2⟩ := R
    have R1' := R1
    simp only [Rep] at R1
    obtain ⟨-, -, -, -, hkx, RL⟩ := R1
    have hx : (g.kids c)[i]? = some x := by
      rw [List.map_cons] at hd
      have := List.getElem?_drop (xs := g.kids c) (i := i) (j := 0)
      rw [hd] at this
      simpa [Tree.id] using this.symm
    have hlr : g.isLinkRoot x = false := hn x (by rw [Tree.idsL_cons, Tree.ids_node]; simp)
    obtain ⟨m1, e1⟩ := quiet_walk_all g kk x 0 RL (fun y hy => hn y (by rw [Tree.idsL_cons, Tree.ids_node]; simp [hy])) (by simpa using hkx)
    obtain ⟨m2, e2⟩ := quiet_walk_all g ks c (i + 1) R2 (fun y hy => hn y (by rw [Tree.idsL_cons]; simp [hy])) (by
      have : (g.kids c).drop (i + 1) = ((g.kids c).drop i).drop 1 := by rw [List.drop_drop]
      rw [this, hd]; rfl)
    by_cases hk : g.kids x = []
    · refine ⟨m2 + 1, fun env force n k st b => ?_⟩
      rw [show m2 + 1 + k = (m2 + k) + 1 by omega, loadBelow, hx]
      simp only [hlr, hk, if_true, Bool.false_eq_true, if_false, Bool.or_false]
      exact e2 env force n k st b
    · refine ⟨m1 + m2 + 1, fun env force n k st b => ?_⟩
      rw [show m1 + m2 + 1 + k = (m1 + (m2 + k)) + 1 by omega, loadBelow, hx]
      simp only [hlr, hk, Bool.false_eq_true, if_false, Bool.or_false]
      rw [e1, e2]

theorem quiet_walk (env : LinkEnv) (force : Bool) (n : Nat) (g : Heap) (ks : List Tree) (c i : Nat) (R : RepL g ks) (hn : ∀ x ∈ Tree.idsL ks, g.isLinkRoot x = false) (hd : (g.kids c).drop i = ks.map Tree.id) :
    ∃ m, ∀ k st b, loadBelow env force n (m + k) g ((c, i) :: st) b = loadBelow env force n k g st b := by
  obtain ⟨m, e⟩ := quiet_walk_all g ks c i R hn hd
  exact ⟨m, e env force n⟩

/-- the link of a loaded link root `x` with the source `s` -/
def doneLink (h : Heap) (s : Id) (r : Tag) (l : LinkSt) : LinkSt :=
  { l with path := dropRoot r l.path, tags := (((numbered h s).map Prod.fst).map (·.1)).eraseDups, keys := (numbered h s).map Prod.fst, loaded := true }

/-- the state `g` after the link roots `D` were loaded, starting from `h` -/
structure LoadInv (h g : Heap) (src : Id → Id) (D : Id → Prop) : Prop where
  wf : WF g
  forest : Forest g
  next : h.next ≤ g.next
  tag : ∀ i, i < h.next → g.tag i = h.tag i
  value : ∀ i, i < h.next → (g.node i).value = (h.node i).value
  flags : ∀ i, i < h.next → g.flags i = h.flags i
  par : ∀ i, i < h.next → g.par i = h.par i
  kids : ∀ i, i < h.next → ¬ D i → g.kids i = h.kids i
  link : ∀ i, i < h.next → ¬ D i → (g.node i).link = (h.node i).link
  reads : ∀ q c, ¬ D q → c ∈ h.kids q → Readable h c → Readable g c
  lt : ∀ x, D x → x < h.next
  done : ∀ x, D x → h.kids x = [] ∧ h.isLinkRoot x = true ∧ List.Forall₂ (MirrorOf h g) (h.kids (src x)) (g.kids x) ∧ (∀ y, Below h (src x) y → h.isLinkRoot y = false) ∧
    (g.node x).link = (h.node x).link.map (doneLink h (src x) (h.tag (h.root x)))
  tidy : ∀ ms, Tidy ms h → Tidy ms g

theorem LoadInv.start {h : Heap} (W : WF h) (F : Forest h) (src : Id → Id) : LoadInv h h src fun _ => False :=
  ⟨W, F, Nat.le_refl _, fun _ _ => rfl, fun _ _ => rfl, fun _ _ => rfl, fun _ _ => rfl, fun _ _ _ => rfl, fun _ _ _ => rfl, fun _ _ _ _ R => R, fun _ hx => hx.elim, fun _ hx => hx.elim, fun _ T => T⟩

/-- kids of items that have children are as before -/
theorem LoadInv.kids' {h g : Heap} {src : Id → Id} {D : Id → Prop} (W : WF h) (I : LoadInv h g src D) (i : Id) (hi : h.kids i ≠ []) : g.kids i = h.kids i :=
  I.kids i (W.lt_of_kids hi) fun hD => hi (I.done i hD).1

theorem LoadInv.root {h g : Heap} {src : Id → Id} {D : Id → Prop} (C : Core h) (Z : NoZombie h) (I : LoadInv h g src D) {x : Id} (hx : x < h.next) : g.root x = h.root x ∧ h.root x < h.next := by
  obtain ⟨k, r, e1, e2, e3⟩ := climb C Z x
  have up : ∀ k x, x < h.next → ∀ r, ancestor h k x = some r → ancestor g k x = some r ∧ r < h.next := by
    intro k
    induction k with
    | zero => intro x hx r e; simp only [ancestor, Option.some.injEq] at e; subst e; exact ⟨rfl, hx⟩
    | succ k ih =>
      intro x hx r e
      simp only [ancestor] at e ⊢
      rw [I.par x hx]
      cases hp : h.par x with
      | none => simp [hp] at e
      | some q =>
        rw [hp] at e
        exact ih q (C.wf.lt_of_kids (by have := Z x q hp; intro h0; rw [h0] at this; simp at this)) r e
  obtain ⟨a, b⟩ := up k x hx r e1
  have er : h.root x = r := rootAux_eq k _ x r e1 e2 e3
  rw [er]
  exact ⟨rootAux_eq k _ x r a (by rw [I.par r b]; exact e2) (Nat.le_trans e3 I.next), b⟩

/-- a mirror stays a mirror while other link roots are loaded -/
theorem MirrorOf.later {h g g' : Heap} {c y : Id} {p : Id} (hp : p < h.next) (hn : ∀ T : Tree, T.id = y → Rep g T → ∀ i ∈ T.ids, i < g.next) (F : LoadFrame g g' p) (hk : g.kids p = []) (M : MirrorOf h g c y) :
    MirrorOf h g' c y := by
  obtain ⟨T, t1, t2, t3, t4⟩ := M
  refine ⟨T, t1, t2.congr fun i hi => ?_, t3, t4⟩
  have hl := hn T t1 t2 i hi
  have := t3 i hi
  exact ⟨F.tag i hl, F.value i hl, F.flags i hl, F.link i hl (by omega) (by rw [hk]; simp), F.kids i hl (by omega)⟩

theorem LeadsTo.lt {h : Heap} (W : WF h) {p x : Id} {ts : List Tag} (L : LeadsTo h p ts x) (hp : p < h.next) : x < h.next := by
  have at_lt : ∀ {l : List Id} {i : Int} {x q : Id}, AtIdx l i x → (∀ c ∈ l, c ∈ h.kids q) → x < h.next := by
    rintro l i x q ⟨n, hn, -⟩ hl
    exact W.kids_lt q x (hl x (List.mem_of_getElem? hn))
  induction L with
  | here p => exact hp
  | @idx p x y i ts a _ ih => exact ih (at_lt (q := p) a fun c hc => hc)
  | @key p x y t i ts a _ ih => exact ih (at_lt (q := p) a fun c hc => (List.mem_filter.1 hc).1)

theorem Below.lt_next {h : Heap} (W : WF h) {a b : Id} (B : Below h a b) (ha : a < h.next) : b < h.next := by
  induction B with
  | refl => exact ha
  | step _ hc _ => exact W.kids_lt _ _ hc

/-- one more link root is loaded -/
theorem LoadInv.load {h g : Heap} {src : Id → Id} {D : Id → Prop} {force : Bool} (C : Core h) (Z : NoZombie h) (I : LoadInv h g src D) {x : Id} (hr : h.isLinkRoot x = true)
    (G : Good h force x (src x)) (hD : ¬ D x) (fe : FileEnv) (n : Nat) :
    ∃ g', loadLinks (linkEnv fe) force (n + 1) g x = (g', .ok true) ∧ LoadInv h g' src fun i => D i ∨ i = x := by
  obtain ⟨lk, l1, l2, l3, l4⟩ := G.link
  have W := C.wf
  obtain ⟨rt, rl⟩ := I.root C Z G.lt
  have hl : (g.node x).link = some lk := (I.link x G.lt hD).trans l1
  have hsl : src x < h.next := l4.lt W rl
  -- finding the source
  obtain ⟨q, eq, hq⟩ := targetIn_spec I.wf (lk := lk) (h.root x) hl rfl
  rw [I.tag _ rl] at eq hq
  have L1 : LeadsTo g (h.root x) (dropRoot (h.tag (h.root x)) lk.path) (src x) := l4.congr (I.kids' W) fun i c hc => I.tag c (W.kids_lt i c hc)
  obtain rfl : q = .ok (src x) := by
    rcases hq with ⟨s, e, L⟩ | ⟨hn, -⟩
    · rw [e, L.unique L1]
    · exact absurd L1 (hn _)
  have ef : (linkEnv fe).find g x = (g.setLink x fun l => { l with path := dropRoot (h.tag (h.root x)) lk.path }, .ok (src x)) := by
    show getTarget fe g x = _
    rw [theFile_none hl l2.the, rt]; exact eq
  have S := setLink_structEq g x fun l => { l with path := dropRoot (h.tag (h.root x)) lk.path }
  have sv := setLink_value g x fun l => { l with path := dropRoot (h.tag (h.root x)) lk.path }
  have sf := setLink_flags g x fun l => { l with path := dropRoot (h.tag (h.root x)) lk.path }
  have sl := setLink_link g x fun l => { l with path := dropRoot (h.tag (h.root x)) lk.path }
  generalize (g.setLink x fun l => { l with path := dropRoot (h.tag (h.root x)) lk.path }) = g1 at *
  have W1 := S.wf I.wf
  have F1 : Forest g1 := I.forest.sub fun q c hc => by rw [S.kids] at hc; exact hc
  have hxk : g1.kids x = [] := by rw [S.kids, I.kids x G.lt hD]; exact G.empty
  -- the source is as before
  have nD : ∀ y, Below h (src x) y → ¬ D y := fun y b hd => by have := (I.done y hd).2.1; rw [G.noRoot y b] at this; cases this
  have ksame : ∀ y, Below h (src x) y → g1.kids y = h.kids y := fun y b => by rw [S.kids, I.kids y (b.lt_next W hsl) (nD y b)]
  have back : ∀ y, Below g1 (src x) y → Below h (src x) y := by
    intro y b
    induction b with
    | refl => exact .refl
    | step _ hc ih => rw [ksame _ ih] at hc; exact .step ih hc
  have fx : ∀ i, i < h.next → g1.flags i = h.flags i := fun i hi => by rw [sf, I.flags i hi]
  have nx : ∀ y, Below h (src x) y → y ≠ x := fun y b e => by have := G.noRoot y b; rw [e, hr] at this; cases this
  have hks : g1.kids (src x) = h.kids (src x) := ksame _ .refl
  have tr : ∀ c ∈ h.kids (src x), g1.tree c = h.tree c := by
    intro c hc
    have R := tree_rep W C.forest c
    have R3 : Rep g1 (h.tree c) := R.congr fun i hi => by
      have b0 : Below h c i := by have := below_iff_ids R i; rw [tree_id] at this; exact this.2 hi
      have b : Below h (src x) i := Below.head hc b0
      have il := b.lt_next W hsl
      exact ⟨by rw [S.tag, I.tag i il], by rw [sv, I.value i il], fx i il, by rw [sl, if_neg (nx i b), I.link i il (nD i b)], ksame i b⟩
    have := R3.tree W1
    rw [tree_id] at this
    exact this
  have num : numbered g1 (src x) = numbered h (src x) := numbered_congr W hks fun i hi => by rw [S.tag, I.tag i hi]
  have rd : ∀ q c, ¬ D q → c ∈ h.kids q → Readable h c → Readable g1 c := by
    intro q c hq hc R
    have hk : h.kids q ≠ [] := by intro h0; rw [h0] at hc; simp at hc
    refine (I.reads q c hq hc R).congr I.wf W1 (p := q) ?_ (S.kids q) (fun y _ => S.tag y) (by rw [S.parent])
    rw [I.kids' W q hk]; exact hc
  have L : Loadable g1 x (src x) := by
    refine ⟨W1, F1, by rw [S.next]; exact Nat.lt_of_lt_of_le G.lt I.next, ?_, ?_, ?_, by rw [hxk]; simp⟩
    · intro i hi hi2
      have b1 : Below g1 (src x) i := by have := below_iff_ids (tree_rep W1 F1 (src x)) i; rw [tree_id] at this; exact this.2 hi
      have b2 : Below g1 x i := by have := below_iff_ids (tree_rep W1 F1 x) i; rw [tree_id] at this; exact this.2 hi2
      have only : ∀ y, Below g1 x y → y = x := by
        intro y b
        induction b with
        | refl => rfl
        | step _ hc ih => rw [ih, hxk] at hc; simp at hc
      exact nx i (back i b1) (only i b2)
    · intro c hc
      rw [hks] at hc
      have := W.kids_lt _ c hc
      rw [fx c this]
      exact ⟨G.noRoot c (.step .refl hc), G.plain c hc⟩
    · intro c hc
      rw [hks] at hc
      obtain ⟨m, hm⟩ := rd (src x) c (nD _ .refl) hc (G.reads c hc)
      exact ⟨_, m, hm⟩
  obtain ⟨g', nid, e, T, -⟩ := takeOver_spec (load := loadLinks (linkEnv fe) force n) L.wf L.forest L.lt L.apart L.plain L.real L.keys
  obtain ⟨g'', e', q1, q2, q3, q4, q5⟩ := first_load (linkEnv fe) force n g g1 x (src x) lk hl l3 ef L hxk
  have e2 := (loadLinks_active (n := n) hl l3 ef).trans e
  obtain rfl : g'' = g' := by have := e'.symm.trans e2; simpa using this
  have Fr : LoadFrame g g'' x := by
    have hk0 : g.kids x = [] := by rw [← S.kids]; exact hxk
    refine ⟨by rw [← S.next]; exact q3.next, ?_, ?_, ?_, ?_, ?_, ?_⟩
    · intro i hi; rw [q3.tag i (by rw [S.next]; exact hi), S.tag]
    · intro i hi; rw [q3.value i (by rw [S.next]; exact hi), sv]
    · intro i hi; rw [q3.flags i (by rw [S.next]; exact hi), sf]
    · intro i hi e; rw [q3.kids i (by rw [S.next]; exact hi) e, S.kids]
    · intro i hi _; rw [q3.par i (by rw [S.next]; exact hi) (by rw [hxk]; simp)]; simp only [Heap.par, S.parent]
    · intro i hi e _; rw [q3.link i (by rw [S.next]; exact hi) e (by rw [hxk]; simp), sl, if_neg e]
  have hlt : ∀ i, i < h.next → i < g.next := fun i hi => Nat.lt_of_lt_of_le hi I.next
  have hk0 : g.kids x = [] := by rw [← S.kids]; exact hxk
  have may : MayLoad fe force (n + 1) g x := by
    refine ⟨Nat.lt_of_lt_of_le G.lt I.next, lk, hl, l2, Or.inr (Or.inl ⟨by rw [← S.kids]; exact hxk, l3, fun s Ls c hc => ?_⟩)⟩
    rw [rt, I.tag _ rl] at Ls
    obtain rfl : s = src x := Ls.unique L1
    rw [← S.kids] at hc
    have := L.plain c hc
    rw [sf] at this
    exact this
  refine ⟨g'', e2, q1, q2, Nat.le_trans I.next Fr.next, ?_, ?_, ?_, ?_, ?_, ?_, ?_, fun y hy => ?_, ?_, fun ms T => by
    have := (I.tidy ms T).load fe force (n + 1) x may
    rw [e2] at this
    exact this⟩
  rotate_left 7
  · rcases hy with h | rfl
    · exact I.lt y h
    · exact G.lt
  rotate_left 1
  · intro i hi; rw [Fr.tag i (hlt i hi), I.tag i hi]
  · intro i hi; rw [Fr.value i (hlt i hi), I.value i hi]
  · intro i hi; rw [Fr.flags i (hlt i hi), I.flags i hi]
  · intro i hi; rw [Fr.par i (hlt i hi) (by rw [hk0]; simp), I.par i hi]
  · intro i hi hn
    rw [not_or] at hn
    rw [Fr.kids i (hlt i hi) hn.2, I.kids i hi hn.1]
  · intro i hi hn
    rw [not_or] at hn
    rw [Fr.link i (hlt i hi) hn.2 (by rw [hk0]; simp), I.link i hi hn.1]
  · intro q c hn hc R
    rw [not_or] at hn
    have hk : h.kids q ≠ [] := by intro h0; rw [h0] at hc; simp at hc
    exact T.reads q c hn.2 (by rw [S.kids, I.kids' W q hk]; exact hc) (rd q c hn.1 hc R)
  · intro y hy
    by_cases hyx : y = x
    · subst hyx
      refine ⟨G.empty, hr, ?_, G.noRoot, ?_⟩
      · rw [hks] at q4
        refine List.Forall₂.imp ?_ (List.forall₂_iff_zip.2 ⟨q4.length_eq, fun {a b} hz => (⟨List.of_mem_zip hz |>.1, (List.forall₂_iff_zip.1 q4).2 hz⟩ : a ∈ h.kids (src y) ∧ MirrorOf g1 g'' a b)⟩)
        rintro a b ⟨ha, T, t1, t2, t3, t4, t5⟩
        rw [tr a ha] at t4 t5
        exact ⟨T, t1, t2, fun i hi => Nat.le_trans I.next (by rw [← S.next]; exact t3 i hi), t4, t5⟩
      · rw [q5, sl, if_pos rfl, num, hl, l1]
        rfl
    · have hyD : D y := by rcases hy with h | h; exact h; exact absurd h hyx
      obtain ⟨d1, d2, d3, d4, d5⟩ := I.done y hyD
      have hyl := I.lt y hyD
      refine ⟨d1, d2, ?_, d4, by rw [Fr.link y (hlt y hyl) hyx (by rw [hk0]; simp)]; exact d5⟩
      rw [Fr.kids y (hlt y hyl) hyx]
      refine List.Forall₂.imp ?_ (List.forall₂_iff_zip.2 ⟨d3.length_eq, fun {a b} hz => (⟨List.of_mem_zip hz |>.2, (List.forall₂_iff_zip.1 d3).2 hz⟩ : b ∈ g.kids y ∧ MirrorOf h g a b)⟩)
      rintro a b ⟨hb, M⟩
      refine M.later G.lt (fun T t1 t2 => t2.ids_lt I.wf ?_) Fr hk0
      rw [t1]; exact I.wf.kids_lt y b hb

theorem LoadInv.same {h g : Heap} {src : Id → Id} {D D' : Id → Prop} (I : LoadInv h g src D) (e : ∀ i, D' i ↔ D i) : LoadInv h g src D' := by
  have : D' = D := by funext i; exact propext (e i)
  rw [this]; exact I

theorem rep_flags {h : Heap} {T : Tree} (R : Rep h T) : h.flags T.id = T.flags := by
  cases T; simp only [Rep] at R; exact R.2.2.1

/-- no item below a mirror is a link root if none is at or below the item it was made for -/
theorem MirrorOf.noRoot {h g : Heap} (W : WF h) (F : Forest h) {c y : Id} (M : MirrorOf h g c y) (hn : ∀ z, Below h c z → h.isLinkRoot z = false) :
    ∃ T : Tree, T.id = y ∧ Rep g T ∧ ∀ z ∈ T.ids, g.isLinkRoot z = false := by
  obtain ⟨T, t1, t2, t3, t4, -⟩ := M
  refine ⟨T, t1, t2, fun z hz => ?_⟩
  obtain ⟨S, hS, rfl⟩ := List.mem_map.1 hz
  have : S.facts ∈ (h.tree c).pre.map Tree.linkedData := by rw [← t4]; exact List.mem_map_of_mem hS
  obtain ⟨S', hS', e⟩ := List.mem_map.1 this
  have ef : S.flags = S'.flags ||| Flags.linked := by
    simp only [Tree.linkedData, Tree.facts, Prod.mk.injEq] at e
    exact e.2.2.symm
  have R := tree_rep W F c
  have b : Below h c S'.id := by have := below_iff_ids R S'.id; rw [tree_id] at this; exact this.2 (List.mem_map_of_mem hS')
  have h0 := hn _ b
  rw [Heap.isLinkRoot, rep_flags (R.sub S' hS')] at h0
  rw [Heap.isLinkRoot, rep_flags (t2.sub S hS), ef]
  revert h0
  generalize S'.flags = f
  revert f
  decide

/-- the deep iterator passes over the new children of a loaded link root -/
theorem LoadInv.pass {h g : Heap} {src : Id → Id} {D : Id → Prop} (W : WF h) (F : Forest h) (I : LoadInv h g src D) {x : Id} (hx : D x) (env : LinkEnv) (force : Bool) (n : Nat) :
    ∃ m, ∀ k st b, loadBelow env force n (m + k) g ((x, 0) :: st) b = loadBelow env force n k g st b := by
  obtain ⟨-, -, d3, d4, -⟩ := I.done x hx
  have R := tree_rep I.wf I.forest x
  have hk : g.kids x = (g.tree x).kids.map Tree.id := by have := R.kids; rw [tree_id] at this; exact this
  refine quiet_walk env force n g (g.tree x).kids x 0 ((repL_iff _).2 fun T hT => R.kid hT) ?_ (by rw [List.drop_zero]; exact hk)
  intro y hy
  obtain ⟨T, hT, hyT⟩ := Tree.mem_idsL.1 hy
  have hTk : T.id ∈ g.kids x := by rw [hk]; exact List.mem_map_of_mem hT
  have : ∃ a ∈ h.kids (src x), MirrorOf h g a T.id := by
    generalize h.kids (src x) = l1 at d3
    generalize g.kids x = l2 at d3 hTk
    induction d3 with
    | nil => simp at hTk
    | @cons a b l1 l2 h1 _ ih =>
      rcases List.mem_cons.1 hTk with e | hm
      · exact ⟨a, by simp, by rw [e]; exact h1⟩
      · obtain ⟨a', ha, M⟩ := ih hm
        exact ⟨a', by simp [ha], M⟩
  obtain ⟨a, ha, M⟩ := this
  obtain ⟨T', t1, t2, t3⟩ := M.noRoot W F fun z b => d4 z (Below.head ha b)
  have : T' = T := by rw [← t2.tree I.wf, t1, (R.kid hT).tree I.wf]
  exact t3 y (by rw [this]; exact hyT)

/-- the deep iterator over the children of `c` from position `i` on loads all link roots there -/
theorem load_walk {h : Heap} {src : Id → Id} {force : Bool} (C : Core h) (Z : NoZombie h) (fe : FileEnv) (n : Nat) : ∀ (ks : List Tree) (c i : Nat) (g : Heap) (D : Id → Prop), RepL h ks → (Tree.idsL ks).Nodup →
    (∀ x ∈ Tree.idsL ks, ¬ D x ∧ x < h.next ∧ (h.isLinkRoot x = true → Good h force x (src x))) → c < h.next → h.isLinkRoot c = false → (h.kids c).drop i = ks.map Tree.id → LoadInv h g src D →
    ∃ m g', (∀ k st b, loadBelow (linkEnv fe) force (n + 1) (m + k) g ((c, i) :: st) b = loadBelow (linkEnv fe) force (n + 1) k g' st (b || (Tree.idsL ks).any h.isLinkRoot)) ∧
      LoadInv h g' src fun y => D y ∨ (y ∈ Tree.idsL ks ∧ h.isLinkRoot y = true)
  | [], c, i, g, D, _, _, _, hc, hcr, hd, I => by
    have hgc : g.kids c = h.kids c := I.kids c hc fun hD => by have := (I.done c hD).2.1; rw [hcr] at this; cases this
    refine ⟨1, g, fun k st b => ?_, I.same fun y => by simp [Tree.idsL_nil]⟩
    have : (g.kids c)[i]? = none := by
      rw [List.map_nil, List.drop_eq_nil_iff] at hd
      rw [hgc]
      exact List.getElem?_eq_none hd
    rw [show 1 + k = k + 1 by omega, loadBelow, this]
    simp [Tree.idsL_nil]
  | .node x t v f l kk :: ks, c, i, g, D, R, hnd, H, hc, hcr, hd, I => by
    have hgc : g.kids c = h.kids c := I.kids c hc fun hD => by have := (I.done c hD).2.1; rw [hcr] at this; cases this
    obtain ⟨R1, R2⟩ := R
    simp only [Rep] at R1
    obtain ⟨-, -, -, -, hkx, RL⟩ := R1
    have hx : (g.kids c)[i]? = some x := by
      rw [List.map_cons] at hd
      have := List.getElem?_drop (xs := h.kids c) (i := i) (j := 0)
      rw [hd] at this
      rw [hgc]
      simpa [Tree.id] using this.symm
    rw [Tree.idsL_cons, Tree.ids_node] at hnd H
    rw [List.cons_append, List.nodup_cons] at hnd
    obtain ⟨hx1, hnd⟩ := hnd
    obtain ⟨nd1, nd2, ndd⟩ := List.nodup_append.1 hnd
    have hd' : (h.kids c).drop (i + 1) = ks.map Tree.id := by
      have : (h.kids c).drop (i + 1) = ((h.kids c).drop i).drop 1 := by rw [List.drop_drop]
      rw [this, hd]; rfl
    obtain ⟨xD, xl, xG⟩ := H x (by simp)
    have hlr : g.isLinkRoot x = h.isLinkRoot x := by simp only [Heap.isLinkRoot, I.flags x xl]
    rw [Tree.idsL_cons, Tree.ids_node]
    cases hr : h.isLinkRoot x with
    | true =>
      have G := xG hr
      obtain ⟨g1, e1, I1⟩ := I.load C Z hr G xD fe n
      have hkk : kk = [] := by rw [G.empty] at hkx; exact List.map_eq_nil_iff.1 hkx.symm
      subst hkk
      obtain ⟨m1, p1⟩ := I1.pass C.wf C.forest (x := x) (Or.inr rfl) (linkEnv fe) force (n + 1)
      obtain ⟨m2, g2, e2, I2⟩ := load_walk C Z fe n ks c (i + 1) g1 (fun y => D y ∨ y = x) R2 nd2 (fun y hy => ⟨fun hD => by
        rcases hD with hD | rfl
        · exact (H y (by simp [hy])).1 hD
        · exact hx1 (by simp [hy]), (H y (by simp [hy])).2⟩) hc hcr hd' I1
      have any : (x :: (Tree.idsL [] ++ Tree.idsL ks)).any h.isLinkRoot = true := by simp [hr]
      have I3 : LoadInv h g2 src fun y => D y ∨ (y ∈ x :: (Tree.idsL [] ++ Tree.idsL ks) ∧ h.isLinkRoot y = true) := I2.same fun y => by
        simp only [Tree.idsL_nil, List.nil_append, List.mem_cons]
        constructor
        · rintro (h1 | ⟨h1 | h1, h2⟩)
          · exact Or.inl (Or.inl h1)
          · exact Or.inl (Or.inr h1)
          · exact Or.inr ⟨h1, h2⟩
        · rintro ((h1 | h1) | ⟨h1, h2⟩)
          · exact Or.inl h1
          · exact Or.inr ⟨Or.inl h1, by rw [h1]; exact hr⟩
          · exact Or.inr ⟨Or.inr h1, h2⟩
      by_cases hk : g1.kids x = []
      · refine ⟨m2 + 1, g2, fun k st b => ?_, I3⟩
        rw [show m2 + 1 + k = (m2 + k) + 1 by omega, loadBelow, hx]
        simp only [hlr, hr, if_true, e1, hk]
        rw [e2, List.cons_append, any]
        simp
      · refine ⟨m1 + m2 + 1, g2, fun k st b => ?_, I3⟩
        rw [show m1 + m2 + 1 + k = (m1 + (m2 + k)) + 1 by omega, loadBelow, hx]
        simp only [hlr, hr, if_true, e1, hk, if_false]
        rw [p1, e2, List.cons_append, any]
        simp
    | false =>
      have hgx : g.kids x = h.kids x := I.kids x xl xD
      by_cases hk : g.kids x = []
      · have hkk : kk = [] := by rw [← hgx, hk] at hkx; exact List.map_eq_nil_iff.1 hkx.symm
        subst hkk
        obtain ⟨m2, g2, e2, I2⟩ := load_walk C Z fe n ks c (i + 1) g D R2 nd2 (fun y hy => H y (by simp [hy])) hc hcr hd' I
        refine ⟨m2 + 1, g2, fun k st b => ?_, I2.same fun y => ?_⟩
        · rw [show m2 + 1 + k = (m2 + k) + 1 by omega, loadBelow, hx]
          simp only [hlr, hr, hk, if_true, Bool.false_eq_true, if_false, Bool.or_false]
          rw [e2]
          simp [Tree.idsL_nil, hr]
        · simp only [Tree.idsL_nil, List.cons_append, List.nil_append, List.mem_cons]
          constructor
          · rintro (h1 | ⟨h1 | h1, h2⟩)
            · exact Or.inl h1
            · rw [h1, hr] at h2; cases h2
            · exact Or.inr ⟨h1, h2⟩
          · rintro (h1 | ⟨h1, h2⟩)
            · exact Or.inl h1
            · exact Or.inr ⟨Or.inr h1, h2⟩
      · obtain ⟨m1, g1, e1, I1⟩ := load_walk C Z fe n kk x 0 g D RL nd1 (fun y hy => H y (by simp [hy])) xl hr (by simpa using hkx) I
        obtain ⟨m2, g2, e2, I2⟩ := load_walk C Z fe n ks c (i + 1) g1 (fun y => D y ∨ (y ∈ Tree.idsL kk ∧ h.isLinkRoot y = true)) R2 nd2 (fun y hy => ⟨fun hD => by
          rcases hD with hD | ⟨hD, -⟩
          · exact (H y (by simp [hy])).1 hD
          · exact ndd y hD y hy rfl, (H y (by simp [hy])).2⟩) hc hcr hd' I1
        have any : (x :: Tree.idsL kk ++ Tree.idsL ks).any h.isLinkRoot = ((Tree.idsL kk).any h.isLinkRoot || (Tree.idsL ks).any h.isLinkRoot) := by simp [hr]
        refine ⟨m1 + m2 + 1, g2, fun k st b => ?_, I2.same fun y => ?_⟩
        · rw [show m1 + m2 + 1 + k = (m1 + (m2 + k)) + 1 by omega, loadBelow, hx]
          simp only [hlr, hr, hk, Bool.false_eq_true, if_false, Bool.or_false]
          rw [e1, e2, any, Bool.or_assoc]
        · simp only [List.cons_append, List.mem_cons, List.mem_append]
          constructor
          · rintro (h1 | ⟨h1 | h1 | h1, h2⟩)
            · exact Or.inl (Or.inl h1)
            · rw [h1, hr] at h2; cases h2
            · exact Or.inl (Or.inr ⟨h1, h2⟩)
            · exact Or.inr ⟨h1, h2⟩
          · rintro ((h1 | ⟨h1, h2⟩) | ⟨h1, h2⟩)
            · exact Or.inl h1
            · exact Or.inr ⟨Or.inr (Or.inl h1), h2⟩
            · exact Or.inr ⟨Or.inr (Or.inr h1), h2⟩

/-- the walk stops at the first link root if loading it fails -/
theorem broken_walk (env : LinkEnv) (force : Bool) (n : Nat) (g : Heap) {x : Id} (hr : g.isLinkRoot x = true) {g' : Heap} {e : Err} (hx : loadLinks env force n g x = (g', .error e)) :
    ∀ (ks : List Tree) (c i : Nat) (A B : List Id), RepL g ks → Tree.idsL ks = A ++ x :: B → (∀ a ∈ A, g.isLinkRoot a = false) → (g.kids c).drop i = ks.map Tree.id →
    ∃ m, ∀ k st b, loadBelow env force n (m + k) g ((c, i) :: st) b = some (g', .error e)
  | [], c, i, A, B, _, hA, _, _ => by simp [Tree.idsL_nil] at hA
  | .node y t v f l kk :: ks, c, i, A, B, R, hA, hq, hd => by
    obtain ⟨R1, R2⟩ := R
    simp only [Rep] at R1
    obtain ⟨-, -, -, -, hky, RL⟩ := R1
    have hy : (g.kids c)[i]? = some y := by
      rw [List.map_cons] at hd
      have := List.getElem?_drop (xs := g.kids c) (i := i) (j := 0)
      rw [hd] at this
      simpa [Tree.id] using this.symm
    have hd' : (g.kids c).drop (i + 1) = ks.map Tree.id := by
      have : (g.kids c).drop (i + 1) = ((g.kids c).drop i).drop 1 := by rw [List.drop_drop]
      rw [this, hd]; rfl
    rw [Tree.idsL_cons, Tree.ids_node, List.cons_append] at hA
    cases A with
    | nil =>
      obtain ⟨rfl, -⟩ : y = x ∧ _ := by simpa using hA
      refine ⟨1, fun k st b => ?_⟩
      rw [show 1 + k = k + 1 by omega, loadBelow, hy]
      simp only [hr, if_true, hx]
    | cons a A =>
      rw [List.cons_append, List.cons.injEq] at hA
      obtain ⟨rfl, hA⟩ := hA
      have hlr := hq y (by simp)
      rcases List.append_eq_append_iff.1 hA with ⟨as, e1, e2⟩ | ⟨bs, e1, e2⟩
      · -- behind the children of `y`
        obtain ⟨m2, p2⟩ := broken_walk env force n g hr hx ks c (i + 1) as B R2 e2 (fun a ha => hq a (by simp [e1, ha])) hd'
        obtain ⟨m1, p1⟩ := quiet_walk env force n g kk y 0 RL (fun a ha => hq a (by simp [e1, ha])) (by simpa using hky)
        by_cases hk : g.kids y = []
        · refine ⟨m2 + 1, fun k st b => ?_⟩
          rw [show m2 + 1 + k = (m2 + k) + 1 by omega, loadBelow, hy]
          simp only [hlr, hk, if_true, Bool.false_eq_true, if_false, Bool.or_false]
          exact p2 k st b
        · refine ⟨m1 + m2 + 1, fun k st b => ?_⟩
          rw [show m1 + m2 + 1 + k = (m1 + (m2 + k)) + 1 by omega, loadBelow, hy]
          simp only [hlr, hk, Bool.false_eq_true, if_false, Bool.or_false]
          rw [p1, p2]
      · cases bs with
        | nil =>
          obtain ⟨m2, p2⟩ := broken_walk env force n g hr hx ks c (i + 1) [] B R2 (by simpa using e2.symm) (fun a ha => by simp at ha) hd'
          obtain ⟨m1, p1⟩ := quiet_walk env force n g kk y 0 RL (fun a ha => hq a (by simp at e1; simp [← e1, ha])) (by simpa using hky)
          by_cases hk : g.kids y = []
          · refine ⟨m2 + 1, fun k st b => ?_⟩
            rw [show m2 + 1 + k = (m2 + k) + 1 by omega, loadBelow, hy]
            simp only [hlr, hk, if_true, Bool.false_eq_true, if_false, Bool.or_false]
            exact p2 k st b
          · refine ⟨m1 + m2 + 1, fun k st b => ?_⟩
            rw [show m1 + m2 + 1 + k = (m1 + (m2 + k)) + 1 by omega, loadBelow, hy]
            simp only [hlr, hk, Bool.false_eq_true, if_false, Bool.or_false]
            rw [p1, p2]
        | cons z bs =>
          rw [List.cons_append, List.cons.injEq] at e2
          obtain ⟨rfl, e2⟩ := e2
          obtain ⟨m1, p1⟩ := broken_walk env force n g hr hx kk y 0 A bs RL e1 (fun a ha => hq a (by simp [ha])) (by simpa using hky)
          have hk : g.kids y ≠ [] := fun h0 => by
            rw [h0] at hky
            have : kk = [] := List.map_eq_nil_iff.1 hky.symm
            rw [this, Tree.idsL_nil] at e1
            simp at e1
          refine ⟨m1 + 1, fun k st b => ?_⟩
          rw [show m1 + 1 + k = (m1 + k) + 1 by omega, loadBelow, hy]
          simp only [hlr, hk, Bool.false_eq_true, if_false, Bool.or_false]
          exact p1 k _ b

end ITree
