import Verif.Proofs.FileLinks
/-
C76: links to files, from the dump to the loaded link.
-/
namespace ITree

open Json (Env Style)

theorem datum_tv {l l' : List Tree} (e : l.map Tree.datum = l'.map Tree.datum) : l.map (fun t => (t.tag, t.value)) = l'.map (fun t => (t.tag, t.value)) := by
  have := congrArg (List.map fun d : Tag × Val × Flags => (d.1, d.2.1)) e
  simpa [List.map_map, Function.comp_def, Tree.datum] using this

theorem mask_has (f : Flags) : (f.has Flags.linkRoot = (f &&& ~~~Flags.deepMask).has Flags.linkRoot) ∧ (f.has Flags.linked = (f &&& ~~~Flags.deepMask).has Flags.linked) := by
  revert f; decide

theorem forall₂_comp {α β γ : Type} {R : α → β → Prop} {S : β → γ → Prop} {Q : α → γ → Prop} (H : ∀ a b c, R a b → S b c → Q a c) : ∀ {l : List α} {m : List β} {k : List γ}, List.Forall₂ R l m → List.Forall₂ S m k → List.Forall₂ Q l k
  | _, _, _, .nil, .nil => .nil
  | _, _, _, .cons a r, .cons b s => .cons (H _ _ _ a b) (forall₂_comp H r s)

/-- no link roots below `y`: `y.load_links()` does nothing, whatever the links would find -/
theorem no_links_all {h : Heap} (W : WF h) (F : Forest h) (y : Id) (hn : ∀ j, Below h y j → h.isLinkRoot j = false) : ∃ K, ∀ env force n k, K ≤ k → callLoadLinks env force (n + 1) k h y = some (h, .ok false) := by
  have R := tree_rep W F y
  have hk : h.kids y = (h.tree y).kids.map Tree.id := by have := R.kids; rw [tree_id] at this; exact this
  obtain ⟨m, e⟩ := quiet_walk_all h (h.tree y).kids y 0 ((repL_iff _).2 fun T hT => R.kid hT) (fun x hx => by
    obtain ⟨T, hT, hxT⟩ := Tree.mem_idsL.1 hx
    have b : Below h T.id x := (below_iff_ids (R.kid hT) x).2 hxT
    exact hn x (Below.head (by rw [hk]; exact List.mem_map_of_mem hT) b)) (by simpa using hk)
  refine ⟨m + 1, fun env force n k hle => ?_⟩
  obtain ⟨j, rfl⟩ : ∃ j, k = m + (j + 1) := ⟨k - m - 1, by omega⟩
  simp only [callLoadLinks, hn y .refl, Bool.false_eq_true, if_false]
  rw [e]
  rfl

/-- C76 (end to end; in part: the stored tree contains no links). A tree `x` stored with `dump(file)` – by any process – and a link root `p` without children whose link names this
file and a path that leads from `x` to `s` (a leading tag of `x` is left out), not loaded or loaded by force, in any tree that was built up: `p.load_links()` loads the file and gives `p` one linked item per child of `s`, in the order of `s`, showing its tags and values in depth; the checksum
of the file is remembered; nothing that existed before changes, except for the link object of `p`. -/
theorem C76_file_link_partial {ms ms2 : ModelSet} {h h2 : Heap} (H : Reach ms h) (G2 : BuiltUp ms2 h2) (gz : Gzip) (G : gz.Sound) (sha : List Char → List Char) (N : Names) (E : Env) (st : Style) (typeName : List Char)
    (pack calcHash overwrite : Bool) {x : Id} (hk : h.kids x ≠ []) (hd : Dumpable N E h x) (hn : ∀ y, Below h x y → (h.flags y).has Flags.linkRoot = false ∧ (h.flags y).has Flags.linked = false)
    (d : Disk) (path : String) (hdir : d.dir path = false) (ho : overwrite = true ∨ d.file path = none) :
    ∃ d' hash, Delivers (fun n => dumpFile gz sha n N E st typeName pack calcHash overwrite h x d path) (d', .ok hash) ∧
      ∀ (crc : List Char → Nat) (force : Bool) (n : Nat) (p s : Id) (lk : LinkSt), (h2.node p).link = some lk → lk.InFile path → LeadsTo h x (dropRoot (h.tag x) lk.path) s → (force = true ∨ lk.loaded = false) → h2.kids p = [] → p < h2.next →
        ∃ K, ∀ k, K ≤ k → ∃ h', loadLinks (linkEnv (diskEnv gz sha N E crc d' k)) force (n + 1) h2 p = (h', .ok true) ∧ WF h' ∧ Forest h' ∧
          List.Forall₂ (Shows h h') (h.kids s) (h'.kids p) ∧
          (∃ lk', (h'.node p).link = some lk' ∧ lk'.loaded = true ∧ lk'.file = lk.file ∧ lk'.path = dropRoot (h.tag x) lk.path ∧ lk'.crc = (d'.file path).map crc) ∧
          (∀ i, i < h2.next → h'.tag i = h2.tag i ∧ (h'.node i).value = (h2.node i).value ∧ h'.flags i = h2.flags i ∧ h'.par i = h2.par i ∧ (i ≠ p → h'.kids i = h2.kids i ∧ (h'.node i).link = (h2.node i).link)) := by
  have W0 := H.core.wf
  have R0 := tree_rep W0 H.core.forest x
  obtain ⟨d', hash, D, -, -, h3, y, e1, e2, e3, e4, e5, e6, e7⟩ := file_round_trip H G2.tidy.reach gz G sha N E st typeName pack calcHash overwrite true hk hd d path hdir ho
  refine ⟨d', hash, D, fun crc force n p s lk hl hf hp ha hkp hlt => ?_⟩
  have W3 := e2.core.wf
  have F3 := e2.core.forest
  have R3 := tree_rep W3 F3 y
  have ei3 := tree_id h3 y
  have ei0 := tree_id h x
  -- the items of the loaded tree are the items of the dumped one
  have hdat : (h3.tree y).pre.map Tree.datum = (h.tree x).pre.map Tree.datum := by
    rw [← Tree.shape_data, ← Tree.shape_data, e6, Shape.data_restored]
  have hplain : ∀ j, Below h3 y j → (h3.flags j).has Flags.linkRoot = false ∧ (h3.flags j).has Flags.linked = false := by
    intro j hj
    have hj' : j ∈ (h3.tree y).ids := (below_iff_ids R3 j).1 (by rw [ei3]; exact hj)
    obtain ⟨T, hT, rfl⟩ := List.mem_map.1 hj'
    have : T.datum ∈ (h.tree x).pre.map Tree.datum := by rw [← hdat]; exact List.mem_map_of_mem hT
    obtain ⟨T0, hT0, et⟩ := List.mem_map.1 this
    have f3 : h3.flags T.id = T.flags := rep_flags (R3.sub _ hT)
    have f0 : h.flags T0.id = T0.flags := rep_flags (R0.sub _ hT0)
    have b0 : Below h x T0.id := by have := (below_iff_ids R0 T0.id).2 (List.mem_map_of_mem hT0); rwa [ei0] at this
    have := hn _ b0
    have em : T0.flags &&& ~~~Flags.deepMask = T.flags &&& ~~~Flags.deepMask := by
      have := congrArg (fun d : Tag × Val × Flags => d.2.2) et; exact this
    rw [f0, (mask_has _).1, (mask_has _).2, em, ← (mask_has _).1, ← (mask_has _).2] at this
    rw [f3]; exact this
  -- loading the file
  obtain ⟨b, hb⟩ : ∃ b, d'.file path = some b := by
    cases hb : d'.file path with
    | none => rw [loadFile, hb] at e1; cases e1
    | some b => exact ⟨b, rfl⟩
  obtain ⟨K, hK⟩ := no_links_all W3 F3 y fun j hj => (hplain j hj).1
  have hload : ∀ k, K ≤ k → (diskEnv gz sha N E crc d' (k + 1)).load h2 path = (h3, .ok y) := by
    intro k hk
    simp only [diskEnv, e1, hK (linkEnv (diskEnv gz sha N E crc d' k)) false 200 k hk]
  have hl3 : (h3.node p).link = some lk := by rw [e3.link p hlt, hl]
  have T0 : Twin h x h3 y := by rw [Twin, e6, Shape.naked_restored]
  have ht : h3.tag y = h.tag x := by rw [← naked_top W3 F3, T0, naked_top W0 H.core.forest]
  obtain ⟨s3, hp3, T3⟩ := hp.twin W0 H.core.forest W3 F3 T0
  have hs3 := leads_below hp3
  have hfind : ∀ k, K ≤ k → (linkEnv (diskEnv gz sha N E crc d' (k + 1))).find h2 p = (h3.setLink p ((fun l => { l with path := dropRoot (h.tag x) lk.path }) ∘ fun l => { l with crc := some (crc b) }), .ok s3) := by
    intro k hk
    have hs : (diskEnv gz sha N E crc d' (k + 1)).sum path = some (crc b) := by simp only [diskEnv, hb, Option.map_some]
    obtain ⟨f1, f2⟩ := C76_find_file _ hl hf hs (hload k hk) W3 hl3
    rw [setLink_setLink, ht] at f1
    rw [ht] at f2
    exact Prod.ext f1 ((f2 s3).2 hp3)
  generalize hg : (h3.setLink p ((fun l => { l with path := dropRoot (h.tag x) lk.path }) ∘ fun l => { l with crc := some (crc b) })) = g at hfind
  have SE : StructEq h3 g := hg ▸ setLink_structEq h3 p _
  have Wg := SE.wf W3
  have Fg := SE.forest F3
  have gfl : ∀ i, g.flags i = h3.flags i := fun i => by rw [← hg]; exact setLink_flags _ _ _ _
  have gval : ∀ i, (g.node i).value = (h3.node i).value := fun i => by rw [← hg]; exact setLink_value _ _ _ _
  have glk : ∀ i, (g.node i).link = if i = p then (h3.node i).link.map ((fun l => { l with path := dropRoot (h.tag x) lk.path }) ∘ fun l => { l with crc := some (crc b) }) else (h3.node i).link := fun i => by rw [← hg]; exact setLink_link _ _ _ _
  have hnp : ∀ j, Below h3 y j → j ≠ p := fun j hj => by have := e5 j hj; omega
  have hkp3 : g.kids p = [] := by rw [SE.kids, e3.kids p hlt id, hkp]
  have hbs : ∀ j, Below h3 s3 j → Below h3 y j := fun j hj => hs3.trans hj
  have Rs := tree_rep W3 F3 s3
  have eis := tree_id h3 s3
  have Rg : Rep g (h3.tree s3) := Rs.congr fun i hi => by
    have hb' : Below h3 s3 i := by have := (below_iff_ids Rs i).2 hi; rwa [eis] at this
    exact ⟨SE.tag i, gval i, gfl i, by rw [glk, if_neg (hnp i (hbs i hb'))], SE.kids i⟩
  have eg : g.tree s3 = h3.tree s3 := by have := Rg.tree Wg; rwa [eis] at this
  have L : Loadable g p s3 := {
    wf := Wg, forest := Fg
    lt := by rw [SE.next]; exact Nat.lt_of_lt_of_le hlt e3.next
    apart := by
      intro i hi hip
      rw [eg] at hi
      have hb' : Below h3 y i := hbs i (by have := (below_iff_ids Rs i).2 hi; rwa [eis] at this)
      have Rp := tree_rep Wg Fg p
      have bp : Below g p i := by have := (below_iff_ids Rp i).2 hip; rwa [tree_id] at this
      rcases below_kid_cases bp with rfl | ⟨c, hc, -⟩
      · exact hnp _ hb' rfl
      · rw [hkp3] at hc; cases hc
    plain := by
      intro c hc
      rw [SE.kids] at hc
      rw [gfl]
      exact hplain c (.step hs3 hc)
    keys := by
      intro c hc
      have hfr : AllFresh g := (e7 G2.fresh).structEq SE
      obtain ⟨q, m, -, -, e⟩ := tagIdx_of_fresh Wg ⟨s3, hc, hfr s3 c hc⟩
      exact ⟨_, _, by rw [e]⟩
    real := by rw [hkp3]; simp }
  refine ⟨K + 1, fun k hk => ?_⟩
  obtain ⟨k, rfl⟩ : ∃ j, k = j + 1 := ⟨k - 1, by omega⟩
  obtain ⟨h', q1, q2, q3, q4, q5, q6⟩ := C74_first_load_partial (linkEnv (diskEnv gz sha N E crc d' (k + 1))) force n h2 g p s3 lk hl ha (hfind k (by omega)) L hkp3
  have q6' := q6
  rw [glk, if_pos rfl] at q6'
  refine ⟨h', q1, q2, q3, ?_, ?_, ?_⟩
  · -- the children shown
    have hky : (h.kids s).map (fun c => (h.tree c).shape.naked) = (g.kids s3).map fun c => (g.tree c).shape.naked := by
      rw [kids_naked W0 H.core.forest, kids_naked Wg Fg, eg, T3]
    have hF : List.Forall₂ (fun c c' => (h.tree c).pre.map Tree.datum = (g.tree c').pre.map Tree.datum) (h.kids s) (g.kids s3) := by
      have : List.Forall₂ (· = ·) ((h.kids s).map (fun c => (h.tree c).shape.naked)) ((g.kids s3).map fun c => (g.tree c).shape.naked) := by rw [hky]; exact List.forall₂_same.2 fun _ _ => rfl
      rw [List.forall₂_map_left_iff, List.forall₂_map_right_iff] at this
      refine this.imp fun c c' e => ?_
      rw [← Tree.shape_data, ← Tree.shape_data, ← Shape.data_naked, e, Shape.data_naked]
    refine forall₂_comp ?_ hF q5
    rintro c c' z hc ⟨T, t1, t2, -, t4, -⟩
    refine ⟨T, t1, t2, ?_, ?_⟩
    · rw [datum_tv hc]
      have := congrArg (List.map fun d : Tag × Val × Flags => (d.1, d.2.1)) t4
      simpa [List.map_map, Function.comp_def, Tree.facts, Tree.linkedData] using this
    · intro i hi
      obtain ⟨S, hS, rfl⟩ := List.mem_map.1 hi
      have : S.facts ∈ (g.tree c').pre.map Tree.linkedData := by rw [← t4]; exact List.mem_map_of_mem hS
      obtain ⟨U, -, eu⟩ := List.mem_map.1 this
      have ef : U.flags ||| Flags.linked = S.flags := congrArg (fun d : Tag × Val × Flags => d.2.2) eu
      rw [rep_flags (t2.sub _ hS), ← ef]
      generalize U.flags = f
      revert f; decide
  · rw [hl3] at q6'
    refine ⟨_, q6', rfl, rfl, rfl, ?_⟩
    rw [hb]; rfl
  · intro i hi
    have hi3 : i < g.next := by rw [SE.next]; exact Nat.lt_of_lt_of_le hi e3.next
    have hnk : i ∉ g.kids p := by rw [hkp3]; simp
    refine ⟨by rw [q4.tag i hi3, SE.tag, e3.tag i hi], by rw [q4.value i hi3, gval, e3.value i hi], by rw [q4.flags i hi3, gfl, e3.flags i hi], ?_, fun hne => ⟨by rw [q4.kids i hi3 hne, SE.kids, e3.kids i hi id], ?_⟩⟩
    · rw [q4.par i hi3 hnk, Heap.par, SE.parent, ← Heap.par, e3.par i hi id]
    · rw [q4.link i hi3 hne hnk, glk, if_neg hne, e3.link i hi]

/-- another program: the item 0 with the child 1, a link root that refers to the first item of the file `new` -/
def fileDemo : Heap := run ms0 Heap.empty [.new (.str "r") .noValue [] 0#6, .newLink (.str "L") (.int 1) [] 0#6 (some "new") [.int 0], .append 0 (.item 1)]
theorem fileDemo_grown : BuiltUp ms0 fileDemo := grown_run _ .empty (by decide +kernel) (by decide +kernel)

/-- all hypotheses of `C76_file_link_partial` are met: `dumpDemo` stored in the file `new`, loaded by the link root 1 of `fileDemo`, which then shows the children of the item 1 of `dumpDemo` (3 and 4) -/
example (sha : List Char → List Char) (E : Env) (st : Style) (crc : List Char → Nat) : ∃ (d' : Disk) (k : Nat) (h' : Heap), loadLinks (linkEnv (diskEnv gz0 sha stdNames E crc d' k)) false 201 fileDemo 1 = (h', .ok true) ∧ (h'.kids 1).length = 2 := by
  have hn : ∀ y, Below dumpDemo 0 y → (dumpDemo.flags y).has Flags.linkRoot = false ∧ (dumpDemo.flags y).has Flags.linked = false := by
    have : (dumpDemo.tree 0).ids = [0, 1, 3, 4, 2] := by decide +kernel
    refine below_of_tree dumpDemo_tidy.reach.core.wf dumpDemo_tidy.reach.core.forest ?_
    rw [this]
    decide +kernel
  obtain ⟨d', hash, -, H⟩ := C76_file_link_partial dumpDemo_tidy.reach fileDemo_grown gz0 ⟨fun _ => rfl, fun _ => rfl⟩ sha stdNames E st "iTree".toList true true false (x := 0) (by decide) (dumpDemo_dumpable E) hn disk0 "new" (by decide) (Or.inr (by decide))
  have e : dropRoot (dumpDemo.tag 0) [.int 0] = [.int 0] := by decide +kernel
  obtain ⟨K, hK⟩ := H crc false 200 1 1 { file := some "new", path := [.int 0] } (by decide +kernel) ⟨rfl, by decide⟩ (by rw [e]; exact .idx ⟨0, by decide +kernel, Or.inl rfl⟩ (.here 1)) (Or.inr rfl) (by decide +kernel) (by decide +kernel)
  obtain ⟨h', e1, -, -, e2, -⟩ := hK K (Nat.le_refl _)
  refine ⟨d', K, h', e1, ?_⟩
  have := e2.length_eq
  have e3 : (dumpDemo.kids 1).length = 2 := by decide +kernel
  simp only [← this, e3]

end ITree
