import Verif.Proofs.LoadAll
import Verif.Props.Grown
/-
C76: what a link finds; `load_links` called on any item.
-/
namespace ITree

/-- C76. A link inside of the own tree: `get_target_tree` delivers exactly the item its path leads to from the root (a leading root tag is left out), and raises if there is none.  Nothing is changed but the path stored in the
link, which loses the leading root tag. -/
theorem C76_find (fe : FileEnv) {h : Heap} (W : WF h) {p : Id} {lk : LinkSt} (hl : (h.node p).link = some lk) (hf : lk.OwnTree) :
    (getTarget fe h p).1 = (h.setLink p fun l => { l with path := dropRoot (h.tag (h.root p)) lk.path }) ∧
      (∀ s, (getTarget fe h p).2 = .ok s ↔ LeadsTo h (h.root p) (dropRoot (h.tag (h.root p)) lk.path) s) := by
  obtain ⟨q, e, hq⟩ := targetIn_spec W (lk := lk) (h.root p) hl rfl
  rw [theFile_none hl hf.the, e]
  refine ⟨rfl, fun s => ?_⟩
  rcases hq with ⟨s', rfl, L⟩ | ⟨hn, e', rfl⟩
  · simp only [Except.ok.injEq]
    exact ⟨fun e => e ▸ L, fun L' => L.unique L'⟩
  · simp only [reduceCtorEq, false_iff]
    exact hn s

/-- C76. A link to a file: the file is loaded and the path is followed from the root of the loaded tree; the checksum of the file is stored in the link. -/
theorem C76_find_file (fe : FileEnv) {h g : Heap} {p y : Id} {lk : LinkSt} {f : String} {c : Nat} (hl : (h.node p).link = some lk) (hf : lk.InFile f) (hs : fe.sum f = some c) (he : fe.load h f = (g, .ok y))
    (W : WF g) (hg : (g.node p).link = some lk) :
    (getTarget fe h p).1 = ((g.setLink p fun l => { l with crc := some c }).setLink p fun l => { l with path := dropRoot (g.tag y) lk.path }) ∧
      (∀ s, (getTarget fe h p).2 = .ok s ↔ LeadsTo g y (dropRoot (g.tag y) lk.path) s) := by
  have S := setLink_structEq g p fun l => { l with crc := some c }
  have hl2 : ((g.setLink p fun l => { l with crc := some c }).node p).link = some { lk with crc := some c } := by rw [setLink_link, if_pos rfl, hg]; rfl
  have L2 : ∀ r ts s, LeadsTo (g.setLink p fun l => { l with crc := some c }) r ts s ↔ LeadsTo g r ts s := fun r ts s =>
    ⟨fun L => L.congr (fun i _ => (S.kids i).symm) (fun i c _ => (S.tag c).symm), fun L => L.congr (fun i _ => S.kids i) (fun i c _ => S.tag c)⟩
  obtain ⟨q, e, hq⟩ := targetIn_spec (S.wf W) (lk := lk) y hl2 rfl
  rw [S.tag] at e hq
  have : getTarget fe h p = targetIn (g.setLink p fun l => { l with crc := some c }) p lk.path y := by simp only [getTarget, hl, hf.the, hs, he]
  rw [this, e]
  refine ⟨rfl, fun s => ?_⟩
  rw [← L2]
  rcases hq with ⟨s', rfl, L⟩ | ⟨hn, e', rfl⟩
  · simp only [Except.ok.injEq]
    exact ⟨fun e => e ▸ L, fun L' => L.unique L'⟩
  · simp only [reduceCtorEq, false_iff]
    exact hn s

/-- C76. A link to a file that does not exist raises FileNotFoundError and changes nothing. -/
theorem C76_no_file (fe : FileEnv) {h : Heap} {p : Id} {lk : LinkSt} {f : String} (hl : (h.node p).link = some lk) (hf : lk.InFile f) (hs : fe.sum f = none) :
    getTarget fe h p = (h, .error .file) := by simp only [getTarget, hl, hf.the, hs]

/-- no files at all -/
def noFiles : FileEnv := { load := fun h _ => (h, .error .file), sum := fun _ => none }

/-- `demo` with two link roots below the root 0: 7, a child of 0, and 8, a child of 2, both referring to the item 1 (with the child 4), by key and by position -/
def farDemo : Heap := run ms0 Heap.empty (demoCalls ++ [.newLink (.str "L") (.int 1) [] 0#6 none [.pair (.other 1) (.int 0)], .append 0 (.item 7),
  .newLink (.str "M") .noValue [] 0#6 none [.int 0], .append 2 (.item 8)])
theorem farDemo_grown : BuiltUp ms0 farDemo := grown_run _ .empty (by decide +kernel) (by decide +kernel)

/-- the two paths lead to the item 1 -/
theorem farDemo_leads7 : LeadsTo farDemo (farDemo.root 7) (dropRoot (farDemo.tag (farDemo.root 7)) [.pair (.other 1) (.int 0)]) 1 := by
  have e : farDemo.root 7 = 0 := by decide +kernel
  have e2 : dropRoot (farDemo.tag 0) [.pair (.other 1) (.int 0)] = [.pair (.other 1) (.int 0)] := by decide +kernel
  rw [e, e2]
  exact .key ⟨0, by decide +kernel, Or.inl rfl⟩ (.here 1)
theorem farDemo_leads8 : LeadsTo farDemo (farDemo.root 8) (dropRoot (farDemo.tag (farDemo.root 8)) [.int 0]) 1 := by
  have e : farDemo.root 8 = 0 := by decide +kernel
  have e2 : dropRoot (farDemo.tag 0) [.int 0] = [.int 0] := by decide +kernel
  rw [e, e2]
  exact .idx ⟨0, by decide +kernel, Or.inl rfl⟩ (.here 1)

example : (getTarget noFiles farDemo 7).2 = .ok 1 :=
  ((C76_find noFiles farDemo_grown.tidy.reach.core.wf (p := 7) (lk := { path := [.pair (.other 1) (.int 0)] }) (by decide +kernel) (Or.inl rfl)).2 1).2 farDemo_leads7
/-- a file whose loaded tree is the item 0 -/
example : (getTarget { load := fun h _ => (h, .ok 0), sum := fun _ => some 5 } (farDemo.setLink 7 fun l => { l with file := some "f" }) 7).2 = .ok 1 ∧
    ((getTarget { load := fun h _ => (h, .ok 0), sum := fun _ => some 5 } (farDemo.setLink 7 fun l => { l with file := some "f" }) 7).1.node 7).link.map (·.crc) = some (some 5) := by decide +kernel

theorem leads_append {h : Heap} {p x y : Id} {a b : List Tag} (A : LeadsTo h p a x) (B : LeadsTo h x b y) : LeadsTo h p (a ++ b) y := by
  induction A with
  | here p => exact B
  | idx s _ ih => exact .idx s (ih B)
  | key s _ ih => exact .key s (ih B)

theorem byIdx_leads {h : Heap} : ∀ (is : List Int) (p x : Id), byIdx h p is = .ok x → LeadsTo h p (is.map Tag.int) x
  | [], p, x, e => by simp only [byIdx, Except.ok.injEq] at e; subst e; exact .here p
  | i :: is, p, x, e => by
    simp only [byIdx] at e
    cases hg : pyGet (h.kids p) i with
    | none => simp [hg] at e
    | some c =>
      rw [hg] at e
      exact .idx (pyGet_iff.1 hg) (byIdx_leads is c x e)

theorem tagPath_leads {h : Heap} (C : Core h) (Z : NoZombie h) (A : AllFresh h) : ∀ (k n : Nat) (x r : Id) (acc : List TagIdx), ancestor h k x = some r → h.par r = none → k ≤ n →
    ∃ ps : List (Tag × Int), tagIdxPathAux n h x acc = (h, .ok (ps.map (fun q => TagIdx.pair q.1 q.2) ++ acc)) ∧ LeadsTo h r (ps.map fun q => .pair q.1 (.int q.2)) x := by
  intro k
  induction k with
  | zero =>
    intro n x r acc e hr _
    simp [ancestor] at e; subst e
    refine ⟨[], ?_, .here _⟩
    cases n <;> simp [tagIdxPathAux, hr]
  | succ k ih =>
    intro n x r acc e hr hn
    cases n with
    | zero => omega
    | succ n =>
      cases hp : h.par x with
      | none => simp [ancestor, hp] at e
      | some p =>
        have hx := Z x p hp
        obtain ⟨q, m, hq, hm, et⟩ := tagIdx_of_fresh C.wf ⟨p, hx, A p x hx⟩
        obtain rfl : p = q := C.wf.parent_unique hx hq
        obtain ⟨ps, e1, e2⟩ := ih n p r (.pair (h.tag x) m :: acc) (by simpa [ancestor, hp] using e) hr (by omega)
        refine ⟨ps ++ [(h.tag x, (m : Int))], by simp [tagIdxPathAux, hp, et, e1], ?_⟩
        rw [List.map_append]
        refine leads_append e2 (.key ⟨m, ?_, Or.inl rfl⟩ (.here x))
        exact hm

/-- C76. In every state without cleared or sorted leftovers: a link whose path is the `idx_path` of an item `s` of the same tree finds `s`, if the tag of the root is not the first number of the path. -/
theorem C76_idx_path {ms : ModelSet} {h : Heap} (R : Tidy ms h) (fe : FileEnv) {p s : Id} {lk : LinkSt} (hl : (h.node p).link = some lk) (hf : lk.OwnTree) (hr : h.root s = h.root p)
    {is : List Int} (hi : (h.idxPath s).2 = .ok is) (hp : lk.path = is.map Tag.int) (ht : lk.path.head? ≠ some (h.tag (h.root p))) : getTarget fe h p = (h, .ok s) := by
  obtain ⟨is', h', e1, -, -, e2, -⟩ := C19_idx_path R s
  rw [e1] at hi
  obtain rfl : is' = is := by simpa using hi
  have hd : dropRoot (h.tag (h.root p)) lk.path = lk.path := by
    cases hq : lk.path with
    | nil => rfl
    | cons t ts => rw [dropRoot, if_neg]; rw [hq] at ht; simpa using ht
  obtain ⟨f1, f2⟩ := C76_find fe R.reach.core.wf hl hf
  rw [hd] at f1 f2
  rw [setLink_id hl rfl] at f1
  have := (f2 s).2 (by rw [hp, ← hr]; exact byIdx_leads _ _ _ e2)
  exact Prod.ext f1 this

/-- C76. In trees that were only built up: a link whose path is the `tag_idx_path` of an item `s` of the same tree finds `s`, if the tag of the root is not the first key of the path. -/
theorem C76_tag_idx_path {ms : ModelSet} {h : Heap} (G : BuiltUp ms h) (fe : FileEnv) {p s : Id} {lk : LinkSt} (hl : (h.node p).link = some lk) (hf : lk.OwnTree) (hr : h.root s = h.root p)
    {ps : List (Tag × Int)} (hi : (h.tagIdxPath s).2 = .ok (ps.map fun q => .pair q.1 q.2)) (hp : lk.path = ps.map fun q => .pair q.1 (.int q.2)) (ht : lk.path.head? ≠ some (h.tag (h.root p))) :
    getTarget fe h p = (h, .ok s) := by
  obtain ⟨C, Z⟩ := G.tidy.inv
  obtain ⟨k, r, e1, e2, e3⟩ := climb C Z s
  have er : h.root s = r := rootAux_eq k _ s r e1 e2 e3
  obtain ⟨ps', q1, q2⟩ := tagPath_leads C Z G.fresh k h.next s r [] e1 e2 e3
  have : ps' = ps := by
    rw [Heap.tagIdxPath, q1] at hi
    simp only [List.append_nil, Except.ok.injEq] at hi
    refine List.map_injective_iff.2 ?_ hi
    rintro ⟨a, b⟩ ⟨a', b'⟩ e
    simpa using e
  subst this
  have hd : dropRoot (h.tag (h.root p)) lk.path = lk.path := by
    cases hq : lk.path with
    | nil => rfl
    | cons t ts => rw [dropRoot, if_neg]; rw [hq] at ht; simpa using ht
  obtain ⟨f1, f2⟩ := C76_find fe C.wf hl hf
  rw [hd] at f1 f2
  rw [setLink_id hl rfl] at f1
  have := (f2 s).2 (by rw [hp, ← hr, er]; exact q2)
  exact Prod.ext f1 this

example : getTarget noFiles farDemo 8 = (farDemo, .ok 1) :=
  C76_idx_path farDemo_grown.tidy noFiles (lk := { path := [.int 0] }) (by decide +kernel) (Or.inl rfl) (by decide +kernel) (is := [0]) (by decide +kernel) rfl (by decide +kernel)
example : getTarget noFiles farDemo 7 = (farDemo, .ok 1) :=
  C76_tag_idx_path farDemo_grown noFiles (lk := { path := [.pair (.other 1) (.int 0)] }) (by decide +kernel) (Or.inl rfl) (by decide +kernel) (ps := [(.other 1, 0)]) (by decide +kernel) rfl (by decide +kernel)

/-! ### where the search goes wrong -/

/-- a root 0 with the tag `0` (an integer), its child 1 with the child 2, and a link root 3 below the root -/
def intRoot (path : List Tag) : Heap := run ms0 Heap.empty [.new (.int 0) .noValue [] 0#6, .new (.str "A") .noValue [] 0#6, .append 0 (.item 1), .new (.str "B") .noValue [] 0#6, .append 1 (.item 2),
  .newLink (.str "L") .noValue [] 0#6 none path, .append 0 (.item 3)]

/-- C76 (defect). If the root has an integer tag, the first position of a path can be taken for the root tag: the link with the `idx_path` of the first child finds the root itself. -/
theorem C76_root_tag_wrong : Tidy ms0 (intRoot [.int 0]) ∧ ((intRoot [.int 0]).idxPath 1).2 = .ok [0] ∧ ((intRoot [.int 0]).node 3).link.map (·.path) = some [.int 0] ∧
    (getTarget noFiles (intRoot [.int 0]) 3).2 = .ok 0 := ⟨tidy_run _ .empty (by decide +kernel), by decide +kernel, by decide +kernel, by decide +kernel⟩

/-- C76 (defect). Searching changes the link: the same link finds different items when it is asked twice. -/
theorem C76_twice_wrong : Tidy ms0 (intRoot [.int 0, .int 0]) ∧ (getTarget noFiles (intRoot [.int 0, .int 0]) 3).2 = .ok 1 ∧
    (getTarget noFiles (getTarget noFiles (intRoot [.int 0, .int 0]) 3).1 3).2 = .ok 0 := ⟨tidy_run _ .empty (by decide +kernel), by decide +kernel, by decide +kernel⟩

/-- C76 (defect). A target path with plain tags is never accepted, even if exactly one item has the tag: SyntaxError. -/
theorem C76_tag_path_wrong : Tidy ms0 (intRoot [.str "A"]) ∧ (((intRoot [.str "A"]).kids 0).filter fun c => (intRoot [.str "A"]).tag c = .str "A") = [1] ∧
    (getTarget noFiles (intRoot [.str "A"]) 3).2 = .error .syntaxErr := ⟨tidy_run _ .empty (by decide +kernel), by decide +kernel, by decide +kernel⟩

/-- C76 (defect). For a link with a stored checksum `is_file_updated` tells the opposite: it delivers True exactly if the file still has this checksum. -/
theorem C76_updated_wrong (fe : FileEnv) {h : Heap} {p : Id} {lk : LinkSt} {f : String} {c c' : Nat} (hl : (h.node p).link = some lk) (hf : lk.InFile f) (hc : lk.crc = some c) (hs : fe.sum f = some c') :
    fileUpdated fe h p = .ok (decide (c' = c)) := by
  simp only [fileUpdated, hl, hf.the, hc, hs]
  congr 2
  exact propext eq_comm

/-- C76 (`is_file_updated`, the answers that are right): a link into the own tree has no file that could change; a link to a file that was never read counts as changed; if the file is gone the question
raises FileNotFoundError. -/
theorem C76_updated (fe : FileEnv) {h : Heap} {p : Id} {lk : LinkSt} (hl : (h.node p).link = some lk) :
    (lk.OwnTree → fileUpdated fe h p = .ok false) ∧ ∀ f, lk.InFile f → (lk.crc = none → fileUpdated fe h p = .ok true) ∧ ((∃ c, lk.crc = some c) → fe.sum f = none → fileUpdated fe h p = .error .file) := by
  refine ⟨fun o => by simp only [fileUpdated, hl, o.the], fun f o => ⟨fun e => by simp only [fileUpdated, hl, o.the, e], fun ⟨c, e⟩ hs => by simp only [fileUpdated, hl, o.the, e, hs]⟩⟩

/-- C76 (defect). So a loaded link to a file that was changed since is not loaded again by `load_links()`: the call delivers False and does nothing. -/
theorem C76_changed_file_wrong (fe : FileEnv) (n : Nat) {h : Heap} {p : Id} {lk : LinkSt} {f : String} {c c' : Nat} (hl : (h.node p).link = some lk) (hf : lk.InFile f) (hc : lk.crc = some c) (hs : fe.sum f = some c')
    (hne : c' ≠ c) (ha : lk.loaded = true) : loadLinks (linkEnv fe) false (n + 1) h p = (h, .ok false) := by
  have hu : (linkEnv fe).changed h p = .ok false := by
    show fileUpdated fe h p = _
    rw [C76_updated_wrong fe hl hf hc hs]; simp [hne]
  have hfile : lk.file.isSome = true := by
    simp [hf.1]
  simp only [loadLinks, hl, loadActive, ha, hu, hfile]
  rfl

example : ∃ (h : Heap) (lk : LinkSt), (h.node 3).link = some lk ∧ lk.InFile "f" ∧ lk.crc = some 4 ∧ lk.loaded = true :=
  ⟨(intRoot []).setLink 3 fun l => { l with file := some "f", crc := some 4, loaded := true }, { file := some "f", crc := some 4, loaded := true }, by decide +kernel, ⟨rfl, by decide⟩, rfl, rfl⟩

/-! ### load_links on any item -/

/-- C76. Without link roots at or below `p` the call `p.load_links()` delivers False and changes nothing. -/
theorem C76_no_links (env : LinkEnv) (force : Bool) (n : Nat) {h : Heap} (W : WF h) (F : Forest h) (p : Id) (hn : ∀ y, Below h p y → h.isLinkRoot y = false) :
    Delivers (fun k => callLoadLinks env force (n + 1) k h p) (h, .ok false) := by
  have R := tree_rep W F p
  have hk : h.kids p = (h.tree p).kids.map Tree.id := by have := R.kids; rw [tree_id] at this; exact this
  obtain ⟨m, e⟩ := quiet_walk env force n h (h.tree p).kids p 0 ((repL_iff _).2 fun T hT => R.kid hT) (fun x hx => by
    obtain ⟨T, hT, hxT⟩ := Tree.mem_idsL.1 hx
    have b : Below h T.id x := (below_iff_ids (R.kid hT) x).2 hxT
    exact hn x (Below.head (by rw [hk]; exact List.mem_map_of_mem hT) b)) (by simpa using hk)
  refine ⟨m + 1, fun k hle => ?_⟩
  obtain ⟨j, rfl⟩ : ∃ j, k = m + (j + 1) := ⟨k - m - 1, by omega⟩
  simp only [callLoadLinks, hn p .refl, Bool.false_eq_true, if_false]
  rw [e]
  rfl

example : Delivers (fun k => callLoadLinks (linkEnv noFiles) false 201 k demo 0) (demo, .ok false) :=
  C76_no_links _ _ 200 demo_core.wf demo_core.forest 0 fun y b => by
    have : y ∈ (demo.tree 0).ids := by have := below_iff_ids (tree_rep demo_core.wf demo_core.forest 0) y; rw [tree_id] at this; exact this.1 b
    revert this
    have : ∀ y ∈ (demo.tree 0).ids, demo.isLinkRoot y = false := by decide +kernel
    exact this y

/-- C76. `p.load_links()` on an item that is no link root loads all link roots below `p`, if each of them has a good source (`Good`): afterwards each has one new linked item per child of its source, in the order of the
source, each the mirror of its source child; its link is marked as loaded and knows the keys of the source; nothing else changes, and the state is one of those the other theorems speak about (`Tidy`), so all of them go on to hold; the call delivers True exactly if there was a link root.
(Missing: link roots with children, sources with link roots in them, links to files.) -/
theorem C76_load_all_partial {ms : ModelSet} {h : Heap} (R : Tidy ms h) (fe : FileEnv) (force : Bool) (n : Nat) {p : Id} (hp : p < h.next) (hr : h.isLinkRoot p = false) (src : Id → Id)
    (H : ∀ x, Below h p x → h.isLinkRoot x = true → Good h force x (src x)) :
    ∃ h' b, Delivers (fun k => callLoadLinks (linkEnv fe) force (n + 2) k h p) (h', .ok b) ∧ (b = true ↔ ∃ x, Below h p x ∧ h.isLinkRoot x = true) ∧ Tidy ms h' ∧ h.next ≤ h'.next ∧
      (∀ x, Below h p x → h.isLinkRoot x = true → List.Forall₂ (MirrorOf h h') (h.kids (src x)) (h'.kids x) ∧
        ∃ lk lk', (h.node x).link = some lk ∧ (h'.node x).link = some lk' ∧ lk'.loaded = true ∧ lk'.keys = (numbered h (src x)).map Prod.fst ∧ lk'.file = lk.file ∧ lk'.path = dropRoot (h.tag (h.root x)) lk.path) ∧
      (∀ i, i < h.next → h'.tag i = h.tag i ∧ (h'.node i).value = (h.node i).value ∧ h'.flags i = h.flags i ∧ h'.par i = h.par i ∧
        (¬ (Below h p i ∧ h.isLinkRoot i = true) → h'.kids i = h.kids i ∧ (h'.node i).link = (h.node i).link)) := by
  obtain ⟨C, Z⟩ := R.inv
  have W := C.wf
  have T := tree_rep W C.forest p
  have hk : h.kids p = (h.tree p).kids.map Tree.id := by have := T.kids; rw [tree_id] at this; exact this
  have hbel : ∀ x, x ∈ Tree.idsL (h.tree p).kids → Below h p x := fun x hx => by
    obtain ⟨S, hS, hxS⟩ := Tree.mem_idsL.1 hx
    exact Below.head (by rw [hk]; exact List.mem_map_of_mem hS) ((below_iff_ids (T.kid hS) x).2 hxS)
  have hids : (h.tree p).ids = p :: Tree.idsL (h.tree p).kids := by
    have := tree_id h p
    cases ht : h.tree p with
    | node i t v f l ks => rw [ht] at this; simp only [Tree.id] at this; subst this; rw [Tree.ids_node]; rfl
  have hiff : ∀ x, (x ∈ Tree.idsL (h.tree p).kids ∧ h.isLinkRoot x = true) ↔ (Below h p x ∧ h.isLinkRoot x = true) := by
    intro x
    constructor
    · rintro ⟨a, b⟩; exact ⟨hbel x a, b⟩
    · rintro ⟨a, b⟩
      refine ⟨?_, b⟩
      have : x ∈ (h.tree p).ids := by have := below_iff_ids T x; rw [tree_id] at this; exact this.1 a
      rw [hids] at this
      rcases List.mem_cons.1 this with rfl | h1
      · rw [hr] at b; cases b
      · exact h1
  have hnd := T.ids_nodup W C.forest
  rw [hids, List.nodup_cons] at hnd
  obtain ⟨m, g, e, I⟩ := load_walk (src := src) (force := force) C Z fe n (h.tree p).kids p 0 h (fun _ => False) ((repL_iff _).2 fun S hS => T.kid hS) hnd.2
    (fun x hx => ⟨id, (hbel x hx).lt_next W hp, fun hxr => H x (hbel x hx) hxr⟩) hp hr (by simpa using hk) (LoadInv.start W C.forest src)
  have I := I.same (D' := fun y => Below h p y ∧ h.isLinkRoot y = true) fun y => by rw [← hiff]; simp
  refine ⟨g, (Tree.idsL (h.tree p).kids).any h.isLinkRoot, ⟨m + 1, fun k hle => ?_⟩, ?_, I.tidy ms R, I.next, ?_, ?_⟩
  · obtain ⟨j, rfl⟩ : ∃ j, k = m + (j + 1) := ⟨k - m - 1, by omega⟩
    simp only [callLoadLinks, hr, Bool.false_eq_true, if_false]
    rw [e]
    rfl
  · rw [List.any_eq_true]
    exact ⟨fun ⟨x, a⟩ => ⟨x, (hiff x).1 a⟩, fun ⟨x, a⟩ => ⟨x, (hiff x).2 a⟩⟩
  · intro x hb hx
    obtain ⟨-, -, d3, -, d5⟩ := I.done x ⟨hb, hx⟩
    obtain ⟨lk, l1, -⟩ := (H x hb hx).link
    rw [l1, Option.map_some] at d5
    exact ⟨d3, lk, _, l1, d5, rfl, rfl, rfl, rfl⟩
  · intro i hi
    exact ⟨I.tag i hi, I.value i hi, I.flags i hi, I.par i hi, fun hn => ⟨I.kids i hi hn, I.link i hi hn⟩⟩

/-- both link roots of `farDemo` are good, with the source 1 -/
theorem farDemo_good : ∀ x, Below farDemo 0 x → farDemo.isLinkRoot x = true → Good farDemo false x 1 := by
  have W := farDemo_grown.tidy.reach.core.wf
  have F := farDemo_grown.tidy.reach.core.forest
  intro x b hx
  have hm : x ∈ (farDemo.tree 0).ids := by have := below_iff_ids (tree_rep W F 0) x; rw [tree_id] at this; exact this.1 b
  have : ∀ y ∈ (farDemo.tree 0).ids, farDemo.isLinkRoot y = true → y = 7 ∨ y = 8 := by decide +kernel
  have noRoot : ∀ y, Below farDemo 1 y → farDemo.isLinkRoot y = false := by
    intro y b
    have hm : y ∈ (farDemo.tree 1).ids := by have := below_iff_ids (tree_rep W F 1) y; rw [tree_id] at this; exact this.1 b
    have : ∀ y ∈ (farDemo.tree 1).ids, farDemo.isLinkRoot y = false := by decide +kernel
    exact this y hm
  have reads : ∀ c ∈ farDemo.kids 1, ∃ m, (farDemo.tagIdx c).2 = .ok (.pair (farDemo.tag c) m) := fun c hc => by
    obtain ⟨m, e, -⟩ := C18_grown farDemo_grown hc
    exact ⟨m, by rw [e]⟩
  rcases this x hm hx with rfl | rfl
  · exact ⟨by decide +kernel, by decide +kernel, ⟨{ path := [.pair (.other 1) (.int 0)] }, by decide +kernel, Or.inl rfl, Or.inr rfl, farDemo_leads7⟩, noRoot, by decide +kernel, reads⟩
  · exact ⟨by decide +kernel, by decide +kernel, ⟨{ path := [.int 0] }, by decide +kernel, Or.inl rfl, Or.inr rfl, farDemo_leads8⟩, noRoot, by decide +kernel, reads⟩

example : ∃ h' b, Delivers (fun k => callLoadLinks (linkEnv noFiles) false 201 k farDemo 0) (h', .ok b) ∧ b = true ∧ (h'.kids 7).length = 1 ∧ (h'.kids 8).length = 1 := by
  obtain ⟨h', b, e1, e2, -, -, e3, -⟩ := C76_load_all_partial farDemo_grown.tidy noFiles false 199 (p := 0) (by decide +kernel) (by decide +kernel) (fun _ => 1) farDemo_good
  have hb : ∀ x ∈ (farDemo.tree 0).ids, Below farDemo 0 x := fun x hx => by
    have := below_iff_ids (tree_rep farDemo_grown.tidy.reach.core.wf farDemo_grown.tidy.reach.core.forest 0) x; rw [tree_id] at this; exact this.2 hx
  have b7 := hb 7 (by decide +kernel)
  have b8 := hb 8 (by decide +kernel)
  have hk : (farDemo.kids 1).length = 1 := by decide +kernel
  refine ⟨h', b, e1, e2.2 ⟨7, b7, by decide +kernel⟩, ?_, ?_⟩
  · rw [← (e3 7 b7 (by decide +kernel)).1.length_eq]; exact hk
  · rw [← (e3 8 b8 (by decide +kernel)).1.length_eq]; exact hk

/-- C76. `p.load_links()` on a link root `p` with a good source `s` (`Good`) loads it: afterwards it has one new linked item per child of `s`, in the order of the source, each the mirror of its source child; its link is
marked as loaded and knows the keys of the source; nothing else changes; the call delivers True.  (Missing: as for `C76_load_all_partial`.) -/
theorem C76_load_root_partial {ms : ModelSet} {h : Heap} (R : Tidy ms h) (fe : FileEnv) (force : Bool) (n : Nat) {p s : Id} (hr : h.isLinkRoot p = true) (G : Good h force p s) :
    ∃ h', Delivers (fun k => callLoadLinks (linkEnv fe) force (n + 1) k h p) (h', .ok true) ∧ Tidy ms h' ∧ h.next ≤ h'.next ∧ List.Forall₂ (MirrorOf h h') (h.kids s) (h'.kids p) ∧
      (∃ lk lk', (h.node p).link = some lk ∧ (h'.node p).link = some lk' ∧ lk'.loaded = true ∧ lk'.keys = (numbered h s).map Prod.fst ∧ lk'.file = lk.file ∧ lk'.path = dropRoot (h.tag (h.root p)) lk.path) ∧
      (∀ i, i < h.next → h'.tag i = h.tag i ∧ (h'.node i).value = (h.node i).value ∧ h'.flags i = h.flags i ∧ h'.par i = h.par i ∧
        (i ≠ p → h'.kids i = h.kids i ∧ (h'.node i).link = (h.node i).link)) := by
  obtain ⟨C, Z⟩ := R.inv
  obtain ⟨g, e, I⟩ := (LoadInv.start C.wf C.forest fun _ => s).load C Z hr G id fe n
  have I := I.same (D' := fun y => y = p) fun y => by simp
  obtain ⟨-, -, d3, -, d5⟩ := I.done p rfl
  obtain ⟨lk, l1, -⟩ := G.link
  rw [l1, Option.map_some] at d5
  refine ⟨g, ⟨0, fun k _ => ?_⟩, I.tidy ms R, I.next, d3, ⟨lk, _, l1, d5, rfl, rfl, rfl, rfl⟩, fun i hi => ⟨I.tag i hi, I.value i hi, I.flags i hi, I.par i hi, fun hn => ⟨I.kids i hi hn, I.link i hi hn⟩⟩⟩
  simp only [callLoadLinks, hr, if_true]
  rw [e]

/-- the histories of C01, C02, C25 … include such loads: here the link 7 gets its linked child -/
example : Tidy ms0 (loadLinks (linkEnv noFiles) false 201 farDemo 7).1 ∧ ((loadLinks (linkEnv noFiles) false 201 farDemo 7).1.kids 7).length = 1 := by
  refine ⟨.load noFiles false 201 7 farDemo_grown.tidy ⟨by decide +kernel, { path := [.pair (.other 1) (.int 0)] }, by decide +kernel, Or.inl rfl, Or.inr (Or.inl ⟨by decide +kernel, Or.inr rfl, fun s L => ?_⟩)⟩, by decide +kernel⟩
  have e1 := ((C76_find noFiles farDemo_grown.tidy.reach.core.wf (p := 7) (lk := { path := [.pair (.other 1) (.int 0)] }) (by decide +kernel) (Or.inl rfl)).2 s).2 L
  have e2 := ((C76_find noFiles farDemo_grown.tidy.reach.core.wf (p := 7) (lk := { path := [.pair (.other 1) (.int 0)] }) (by decide +kernel) (Or.inl rfl)).2 1).2 farDemo_leads7
  rw [e1] at e2
  cases e2
  decide +kernel
example : ∃ h', Delivers (fun k => callLoadLinks (linkEnv noFiles) false 201 k farDemo 7) (h', .ok true) ∧ (h'.kids 7).length = 1 := by
  obtain ⟨h', e1, -, -, e2, -⟩ := C76_load_root_partial farDemo_grown.tidy noFiles false 200 (p := 7) (s := 1) (by decide +kernel) (farDemo_good 7
    (by have := below_iff_ids (tree_rep farDemo_grown.tidy.reach.core.wf farDemo_grown.tidy.reach.core.forest 0) 7; rw [tree_id] at this; exact this.2 (by decide +kernel)) (by decide +kernel))
  exact ⟨h', e1, by rw [← e2.length_eq]; decide +kernel⟩

/-- C76. A broken link is not skipped: if the first link root `x` at or below `p` (in document order) has a link into the own tree that is to be loaded and whose path leads nowhere, then `p.load_links()` raises.  Nothing is
changed but the path stored in the link, which loses the leading root tag. -/
theorem C76_broken {h : Heap} (W : WF h) (F : Forest h) (fe : FileEnv) (force : Bool) (n : Nat) {p x : Id} {A B : List Id} (hA : (h.tree p).ids = A ++ x :: B) (hq : ∀ a ∈ A, h.isLinkRoot a = false)
    (hr : h.isLinkRoot x = true) {lk : LinkSt} (hl : (h.node x).link = some lk) (hf : lk.OwnTree) (ha : force = true ∨ lk.loaded = false)
    (hb : ∀ s, ¬ LeadsTo h (h.root x) (dropRoot (h.tag (h.root x)) lk.path) s) :
    ∃ e, Delivers (fun k => callLoadLinks (linkEnv fe) force (n + 2) k h p) (h.setLink x (fun l => { l with path := dropRoot (h.tag (h.root x)) lk.path }), .error e) := by
  obtain ⟨f1, f2⟩ := C76_find fe W hl hf
  have hact : loadActive (linkEnv fe) h x lk force = (h, .ok true) := by
    rw [loadActive, if_pos]
    rcases ha with rfl | e
    · rfl
    · simp [e]
  obtain ⟨e, he⟩ : ∃ e, (getTarget fe h x).2 = .error e := by
    cases hg : (getTarget fe h x).2 with
    | error e => exact ⟨e, rfl⟩
    | ok s => exact absurd ((f2 s).1 hg) (hb s)
  have hx : ∀ m, loadLinks (linkEnv fe) force (m + 1) h x = (h.setLink x (fun l => { l with path := dropRoot (h.tag (h.root x)) lk.path }), .error e) := by
    intro m
    have hfind : (linkEnv fe).find h x = getTarget fe h x := rfl
    simp only [loadLinks, hl, hact, hfind, he, f1]
  have T := tree_rep W F p
  have hids : (h.tree p).ids = p :: Tree.idsL (h.tree p).kids := by
    have := tree_id h p
    cases ht : h.tree p with
    | node i t v f l ks => rw [ht] at this; simp only [Tree.id] at this; subst this; rw [Tree.ids_node]; rfl
  have hk : h.kids p = (h.tree p).kids.map Tree.id := by have := T.kids; rw [tree_id] at this; exact this
  refine ⟨e, ?_⟩
  rw [hids] at hA
  cases A with
  | nil =>
    obtain ⟨rfl, -⟩ : p = x ∧ _ := by simpa using hA
    refine ⟨0, fun k _ => ?_⟩
    simp only [callLoadLinks, hr, if_true]
    rw [hx]
  | cons a A =>
    rw [List.cons_append, List.cons.injEq] at hA
    obtain ⟨rfl, hA⟩ := hA
    obtain ⟨m, e⟩ := broken_walk (linkEnv fe) force (n + 1) h hr (hx n) (h.tree p).kids p 0 A B ((repL_iff _).2 fun S hS => T.kid hS) hA (fun a ha => hq a (by simp [ha])) (by simpa using hk)
    refine ⟨m, fun k hle => ?_⟩
    obtain ⟨j, rfl⟩ : ∃ j, k = m + j := ⟨k - m, by omega⟩
    simp only [callLoadLinks, hq p (by simp), Bool.false_eq_true, if_false]
    rw [e]

/-- a link root 3 below the root whose path leads nowhere -/
example : ∃ e, Delivers (fun k => callLoadLinks (linkEnv noFiles) false 201 k (intRoot [.int 7]) 0) ((intRoot [.int 7]).setLink 3 (fun l => { l with path := [.int 7] }), .error e) := by
  have T : Tidy ms0 (intRoot [.int 7]) := tidy_run _ .empty (by decide +kernel)
  have er : (intRoot [.int 7]).root 3 = 0 := by decide +kernel
  have ed : dropRoot ((intRoot [.int 7]).tag 0) [.int 7] = [.int 7] := by decide +kernel
  have := C76_broken T.reach.core.wf T.reach.core.forest noFiles false 199 (p := 0) (x := 3) (A := [0, 1, 2]) (B := []) (by decide +kernel) (by decide +kernel) (by decide +kernel) (lk := { path := [.int 7] }) (by decide +kernel)
    (Or.inl rfl) (Or.inr rfl) (fun s L => by
      rw [er, ed] at L
      cases L with
      | idx a _ =>
        obtain ⟨m, a1, a2⟩ := a
        have hk : (intRoot [.int 7]).kids 0 = [1, 3] := by decide +kernel
        rw [hk] at a1 a2
        have : m < 2 := by by_contra hc; rw [List.getElem?_eq_none (by simp; omega)] at a1; cases a1
        simp at a2
        omega)
  rw [er, ed] at this
  exact this

end ITree
