import Verif.Proofs.LoadLinks6
import Verif.Props.MakeLocal
import Verif.Props.Defects
/-
C74: loading the children of a link root from the source of the link.
-/
namespace ITree

/-- C74. Loading a link root without children: it gets one new linked item per child of the source, in the order of the source, each the mirror of its source child; the link is marked as loaded and knows the
keys of the source; nothing else changes and everything stays consistent.
(Missing: sources inside of the own tree of the link root or with linked children, `C74_shared_wrong`; the structure below, `C46_structure_wrong`.) -/
theorem C74_first_load_partial (env : LinkEnv) (force : Bool) (n : Nat) (h g : Heap) (p s : Id) (lk : LinkSt) (hl : (h.node p).link = some lk) (ha : force = true ∨ lk.loaded = false)
    (hf : env.find h p = (g, .ok s)) (L : Loadable g p s) (hk : g.kids p = []) :
    ∃ h', loadLinks env force (n + 1) h p = (h', .ok true) ∧ WF h' ∧ Forest h' ∧ LoadFrame g h' p ∧ List.Forall₂ (MirrorOf g h') (g.kids s) (h'.kids p) ∧
      (h'.node p).link = (g.node p).link.map fun l => { l with tags := (((numbered g s).map Prod.fst).map (·.1)).eraseDups, keys := (numbered g s).map Prod.fst, loaded := true } :=
  first_load env force n h g p s lk hl ha hf L hk

/-- C74. Loading a link root that has children (first loading with local children, or loading again).  `out` lists the children afterwards, each with the key of the source it stands for, if any:
* the keys of the source appear each once, in the order of the source;
* a child is a new mirror of the source child with its key, or an old child, covering a new mirror of the source child with its key, or an old child standing for nothing, whose link is as before;
* an old child stands only for its own key;
* every old child that is not linked stays, and stands for its key if the source has this key.
Nothing else changes and everything stays consistent.
(Missing: as in `C74_first_load_partial`; old linked children are not always replaced, `C46_reload_wrong`, `C46_removed_wrong`.) -/
theorem C74_reload_partial (env : LinkEnv) (force : Bool) (n : Nat) (h g : Heap) (p s : Id) (lk : LinkSt) (hl : (h.node p).link = some lk) (ha : force = true ∨ lk.loaded = false)
    (hf : env.find h p = (g, .ok s)) (L : Loadable g p s) :
    ∃ h', loadLinks env force (n + 1) h p = (h', .ok true) ∧ WF h' ∧ Forest h' ∧ LoadFrame g h' p ∧
      (h'.node p).link = (g.node p).link.map (fun l => { l with tags := (((numbered g s).map Prod.fst).map (·.1)).eraseDups, keys := (numbered g s).map Prod.fst, loaded := true }) ∧
      ∃ out : List (Id × Option LKey), h'.kids p = out.map Prod.fst ∧ out.filterMap Prod.snd = (numbered g s).map Prod.fst ∧
        (∀ y k, (y, some k) ∈ out → ∃ c, (k, c) ∈ numbered g s ∧ (MirrorOf g h' c y ∨ ((k, y) ∈ numbered g p ∧ ∃ z, coverOf h' y = some z ∧ MirrorOf g h' c z))) ∧
        (∀ y, (y, none) ∈ out → y ∈ g.kids p ∧ (h'.node y).link = (g.node y).link) ∧
        (∀ k x, (k, x) ∈ numbered g p → (g.flags x).has Flags.linked = false → x ∈ h'.kids p ∧ (k ∈ (numbered g s).map Prod.fst → (x, some k) ∈ out)) := by
  obtain ⟨h', nid, e, T, -⟩ := takeOver_spec (load := loadLinks env force n) L.wf L.forest L.lt L.apart L.plain L.real L.keys
  refine ⟨h', (loadLinks_active hl ha hf).trans e, T.wf, T.forest, T.frame L.wf, T.link_p, ?_⟩
  have hkn : ((oldKids g p).map (·.1)).Nodup := by
    have : (oldKids g p).map (·.1) = (numbered g p).map Prod.fst := by rw [oldKids, List.map_map]; rfl
    rw [this]; exact numbered_keys_nodup L.wf p
  have hxn : ((oldKids g p).map (·.2.2)).Nodup := by
    have : (oldKids g p).map (·.2.2) = (numbered g p).map Prod.snd := by rw [oldKids, List.map_map]; rfl
    rw [this, numbered_items]; exact L.wf.kids_nodup p
  have hmem : ∀ z k c, LOut.old z k c ∈ mergeKids (oldKids g p) ((numbered g s).map Prod.fst) → (k, z) ∈ numbered g p := by
    intro z k c hz
    obtain ⟨f, hf⟩ := localEntries_mem _ _ _ _ (mergeLoop_entry _ _ _ _ _ _ hz)
    simp only [oldKids, List.mem_map, Prod.mk.injEq] at hf
    obtain ⟨e, he, e1, _, e2⟩ := hf
    rw [← e1, ← e2]; exact he
  have hkid : ∀ k z, (k, z) ∈ numbered g p → z ∈ g.kids p := fun k z hz => by
    rw [← numbered_items g p]; exact List.mem_map_of_mem (f := Prod.snd) hz
  have hmir : ∀ k, k ∈ (numbered g s).map Prod.fst → ∃ c, (k, c) ∈ numbered g s ∧ MirrorOf g h' c (nid k) := by
    intro k hk
    obtain ⟨e, he, rfl⟩ := List.mem_map.1 hk
    obtain ⟨U, u1, u2, u3, u4⟩ := T.new e he
    have := mirrorOf_linked u2 (fun i hi => (u4 i hi).1) u3
    rw [u1] at this
    exact ⟨e.2, he, this⟩
  obtain ⟨k1, k2, k3⟩ := C46_locals (oldKids g p) ((numbered g s).map Prod.fst) hkn hxn
  have hst := C46_order (oldKids g p) ((numbered g s).map Prod.fst)
  have hsm : ∀ o ∈ mergeKids (oldKids g p) ((numbered g s).map Prod.fst), ∀ k, o.stands = some k → k ∈ (numbered g s).map Prod.fst := by
    intro o ho k hs
    rw [← hst]; exact List.mem_filterMap.2 ⟨o, ho, hs⟩
  have hcv := fun k x hx hs => C46_cover (oldKids g p) ((numbered g s).map Prod.fst) hkn k x hx hs
  have hkp := T.kids_p
  have hcover := T.cover
  have hlink := T.link
  generalize mergeKids (oldKids g p) ((numbered g s).map Prod.fst) = M at *
  refine ⟨M.map fun o => (resolve nid o, o.stands), ?_, ?_, ?_, ?_, ?_⟩
  · rw [hkp, List.map_map]; rfl
  · rw [List.filterMap_map, ← hst]; rfl
  · intro y k hy
    simp only [List.mem_map, Prod.mk.injEq] at hy
    obtain ⟨o, ho, rfl, hs⟩ := hy
    obtain ⟨c, hc, hm⟩ := hmir k (hsm o ho k hs)
    refine ⟨c, hc, ?_⟩
    cases o with
    | new k' => simp only [LOut.stands, Option.some.injEq] at hs; subst hs; exact .inl hm
    | old z k' c' =>
      cases c' with
      | false => simp [LOut.stands] at hs
      | true =>
        simp only [LOut.stands, Option.some.injEq] at hs; subst hs
        refine .inr ⟨hmem _ _ _ ho, nid k', ?_, hm⟩
        simp only [resolve, coverOf, hcover _ _ ho]
  · intro y hy
    simp only [List.mem_map, Prod.mk.injEq] at hy
    obtain ⟨o, ho, rfl, hs⟩ := hy
    cases o with
    | new k' => simp [LOut.stands] at hs
    | old z k' c' =>
      have hz := hkid _ _ (hmem _ _ _ ho)
      refine ⟨hz, hlink z (L.wf.kids_lt p z hz) ?_ ?_⟩
      · rintro rfl; exact L.forest.irrefl hz .refl
      · intro k hk
        -- two entries with the same old child
        cases c' with
        | true => simp [LOut.stands] at hs
        | false =>
          have hc : (M.filterMap LOut.kept).count z ≤ 1 := List.nodup_iff_count_le_one.1 k3 z
          obtain ⟨A, B, rfl⟩ := List.append_of_mem ho
          have hA : LOut.old z k true ∈ A ++ B := by
            simp only [List.mem_append, List.mem_cons, LOut.old.injEq, Bool.true_eq_false, and_false, false_or] at hk ⊢; exact hk
          have h1 : z ∈ (A ++ B).filterMap LOut.kept := List.mem_filterMap.2 ⟨_, hA, rfl⟩
          have h2 : 1 ≤ ((A ++ B).filterMap LOut.kept).count z := List.one_le_count_iff.2 h1
          simp only [List.filterMap_append, List.filterMap_cons, List.count_append, LOut.kept, List.count_cons_self] at hc h2
          omega
  · intro k x hx hlk
    have hold : (k, false, x) ∈ oldKids g p := List.mem_map.2 ⟨(k, x), hx, by simp [hlk]⟩
    refine ⟨?_, fun hs => List.mem_map.2 ⟨_, hcv k x hold hs, rfl⟩⟩
    have : x ∈ M.filterMap LOut.kept := List.one_le_count_iff.1 (by rw [k1 k x hold])
    obtain ⟨o, ho, e⟩ := List.mem_filterMap.1 this
    rw [hkp]
    refine List.mem_map.2 ⟨o, ho, ?_⟩
    cases o with
    | new _ => simp [LOut.kept] at e
    | old z k' c => simpa [LOut.kept, resolve] using e

/-- C74. If the source cannot be found the call raises the error of the search and changes nothing else. -/
theorem C74_missing (env : LinkEnv) (force : Bool) (n : Nat) (h g : Heap) (p : Id) (lk : LinkSt) (e : Err) (hl : (h.node p).link = some lk) (ha : force = true ∨ lk.loaded = false)
    (hf : env.find h p = (g, .error e)) : loadLinks env force (n + 1) h p = (g, .error e) := by
  have : loadActive env h p lk force = (h, .ok true) := by
    rw [loadActive, if_pos]
    rcases ha with h | h <;> simp [h]
  simp only [loadLinks, hl, this, hf]

/-- C74. A link root whose iTLink object is missing (`None`) is left alone. -/
theorem C74_no_link (env : LinkEnv) (force : Bool) (n : Nat) (h : Heap) (p : Id) (hl : (h.node p).link = none) : loadLinks env force (n + 1) h p = (h, .ok false) := by
  simp only [loadLinks, hl]

/-- C74. Calls nested more than 200 deep raise RecursionError and change nothing. -/
theorem C74_too_deep (env : LinkEnv) (force : Bool) (h : Heap) (p : Id) : loadLinks env force 0 h p = (h, .error .recursion) := rfl

/-- C74. Loading a loaded link again without force does nothing if the source is found and has the same keys as before. -/
theorem C74_second (env : LinkEnv) (n : Nat) (h g : Heap) (p s : Id) (lk : LinkSt) (hl : (h.node p).link = some lk) (ha : lk.loaded = true) (hc : env.changed h p = .ok false)
    (hi : lk.file = none) (hf : env.find h p = (g, .ok s)) (W : WF g) (hk : (numbered g s).map Prod.fst = lk.keys) (U : Unchanged h g) :
    ∃ h', loadLinks env false (n + 1) h p = (h', .ok false) ∧ Unchanged h h' := by
  have hlen : (g.kids s).length = lk.keys.length := by
    rw [← hk, ← numbered_items g s, List.length_map, List.length_map]
  by_cases h0 : g.kids s = []
  · refine ⟨g, ?_, U⟩
    have : loadActive env h p lk false = (g, .ok false) := by
      rw [loadActive]
      simp only [ha, hc, hi, hf, hlen, h0]
      rw [h0] at hlen
      simp [← hlen]
    simp only [loadLinks, hl, this]
  · obtain ⟨h', e, C⟩ := items_ok W (by obtain ⟨F, hF, _⟩ := W.fams_ok s h0; rw [hF]; simp) (fun _ => true)
    have hko : keysOf g s (fun _ => true) = (h', .ok lk.keys) := by
      rw [keysOf, e]
      simp only [List.filter_true, hk, Except.map]
    refine ⟨h', ?_, ?_⟩
    · have : loadActive env h p lk false = (h', .ok false) := by
        rw [loadActive]
        simp only [ha, hc, hi, hf, hlen, h0, hko]
        simp
      simp only [loadLinks, hl, this]
    · exact Frame.trans U C.unchanged

/-! ### concrete link roots -/

/-- the source of every link is the item `s` -/
def fixedSource (s : Id) : LinkEnv := { find := fun h _ => (h, .ok s), changed := fun _ _ => .ok false }

/-- a source `S(P(Q), R, T)` -/
def sourceTree : Tree := .node 0 (.str "S") .noValue 0#6 none [
  .node 0 (.str "P") (.int 10) 0#6 none [.node 0 (.str "Q") (.int 11) 0#6 none []], .node 0 (.str "R") (.int 12) 0#6 none [], .node 0 (.str "T") (.int 13) 0#6 none []]

/-- the loaded link root `L` 0 of `linkHeap` with the linked children `P` 1 and `R` 5, beside the source `S` 6 with the children `P` 7 (`Q` 8), `R` 9 and `T` 10, and a link root `M` 11 with the local children
`X` 12 and `R` 13, not loaded -/
def loadHeap : Heap :=
  (build (build linkHeap sourceTree).1 (.node 0 (.str "M") .noValue Flags.linkRoot none [.node 0 (.str "X") (.int 20) 0#6 none [], .node 0 (.str "R") (.int 21) 0#6 none []])).1.modify 11
    fun n => { n with link := some { path := [.str "S"] } }

theorem loadHeap_wf : WF loadHeap := by
  unfold loadHeap
  refine StructEq.wf (DataOnly.structEq ?_ _ 11) (build_spec (build_spec linkHeap_wf _).wf _).wf
  constructor <;> intro <;> rfl

/-- loading the children of `S` into `M(X, R)`: new linked items for `P` and `T`, `X` and `R` stay; `R` stands in the place of the `R` of the source -/
example : (loadLinks (fixedSource 6) false 201 loadHeap 11).2 = .ok true ∧ (loadLinks (fixedSource 6) false 201 loadHeap 11).1.kids 11 = [14, 12, 13, 17] ∧
    [14, 12, 13, 17].map (loadLinks (fixedSource 6) false 201 loadHeap 11).1.tag = [.str "P", .str "X", .str "R", .str "T"] := by decide +kernel


theorem linkHeap_forest : Forest linkHeap := by
  unfold linkHeap
  refine StructEq.forest (DataOnly.structEq ?_ _ 0) ((build_spec core_empty.wf linkTree).forest core_empty.forest)
  constructor <;> intro <;> rfl

theorem loadHeap_forest : Forest loadHeap := by
  unfold loadHeap
  refine StructEq.forest (DataOnly.structEq ?_ _ 11) ((build_spec (build_spec linkHeap_wf _).wf _).forest ((build_spec linkHeap_wf _).forest linkHeap_forest))
  constructor <;> intro <;> rfl

/-- the hypotheses of the theorems are met: loading `M(X, R)` … -/
example : Loadable loadHeap 11 6 where
  wf := loadHeap_wf
  forest := loadHeap_forest
  lt := by decide +kernel
  apart := by decide +kernel
  plain := by decide +kernel
  keys := by
    have e : loadHeap.kids 6 = [7, 9, 10] := by decide +kernel
    rw [e]
    simp only [List.mem_cons, List.not_mem_nil, or_false, forall_eq_or_imp, forall_eq]
    exact ⟨⟨.str "P", 0, by decide +kernel⟩, ⟨.str "R", 0, by decide +kernel⟩, ⟨.str "T", 0, by decide +kernel⟩⟩
  real := by decide +kernel
/-- … and loading into an item without children (`U` 3, made a link root) -/
example : loadHeap.kids 3 = [] ∧ (∀ i ∈ (loadHeap.tree 6).ids, i ∉ (loadHeap.tree 3).ids) ∧
    (loadLinks (fixedSource 6) false 201 (loadHeap.modify 3 fun n => { n with flags := Flags.linkRoot, link := some { path := [.str "S"] } }) 3).1.kids 3 = [14, 16, 17] := by decide +kernel
/-- the second loading of a link whose source kept its keys -/
example : ((linkHeap.node 0).link.map fun l => (l.loaded, l.file.isNone, decide (l.keys = (numbered linkHeap 0).map Prod.fst))) = some (true, true, true) := by decide +kernel

/-- C74 (defect). Old linked children that are dropped when a link is loaded again keep the link root as their parent: after the forced loading of `L(P, R)` the old `R` is no child of `L` any more, but `L` is
still its parent. -/
theorem C74_stray_wrong : WF loadHeap ∧ 5 ∈ loadHeap.kids 0 ∧ (loadLinks (fixedSource 6) true 201 loadHeap 0).2 = .ok true ∧
    5 ∉ (loadLinks (fixedSource 6) true 201 loadHeap 0).1.kids 0 ∧ (loadLinks (fixedSource 6) true 201 loadHeap 0).1.par 5 = some 0 :=
  ⟨loadHeap_wf, by decide +kernel⟩

/-- `loadHeap`, the local child `R` 13 of `M` is itself a link root with a link to a file -/
def ownLinkHeap : Heap := loadHeap.modify 13 fun n => { n with flags := Flags.linkRoot, link := some { file := some "f.itz", path := [.str "S"] } }

/-- C74 (defect). A local child of a link root that is itself a link root loses its own link if the source has its key: afterwards its link knows only the item it covers, not the file. -/
theorem C74_own_link_wrong : (ownLinkHeap.flags 13).has Flags.linkRoot = true ∧ (ownLinkHeap.node 13).link = some { file := some "f.itz", path := [.str "S"] } ∧
    (loadLinks (fixedSource 6) false 201 ownLinkHeap 11).2 = .ok true ∧ ((loadLinks (fixedSource 6) false 201 ownLinkHeap 11).1.flags 13).has Flags.linkRoot = true ∧
    ((loadLinks (fixedSource 6) false 201 ownLinkHeap 11).1.node 13).link = some { cover := some 16 } := by decide +kernel

/-- `Z(A, L(Y))`, the link of `L` leads to `Z` -/
def circleHeap : Heap := (build Heap.empty (.node 0 (.str "Z") .noValue 0#6 none [.node 0 (.str "A") .noValue 0#6 none [],
  .node 0 (.str "L") .noValue Flags.linkRoot none [.node 0 (.str "Y") .noValue 0#6 none []]])).1.modify 2 fun n => { n with link := some { path := [.str "Z"] } }

/-- C74 (defect). A circular link is found only after 200 nested loadings; RecursionError is raised, but by then the local child of the link root is lost (and stays with the link root as its parent). -/
theorem C74_circle_wrong : circleHeap.kids 2 = [3] ∧ (loadLinks (fixedSource 0) false 201 circleHeap 2).2 = .error .recursion ∧
    3 ∉ (loadLinks (fixedSource 0) false 201 circleHeap 2).1.kids 2 ∧ (loadLinks (fixedSource 0) false 201 circleHeap 2).1.par 3 = some 2 := by decide +kernel

/-- `loadHeap`, the child `R` 9 of the source is a linked item -/
def sharedHeap : Heap := loadHeap.modify 9 fun n => { n with flags := Flags.linked }

/-- C74 (defect). If a child of the source is itself linked the very item is taken over: afterwards it is a child of the source and of the link root, which is its parent now. -/
theorem C74_shared_wrong : (loadLinks (fixedSource 6) true 201 sharedHeap 0).2 = .ok true ∧ 9 ∈ (loadLinks (fixedSource 6) true 201 sharedHeap 0).1.kids 6 ∧
    9 ∈ (loadLinks (fixedSource 6) true 201 sharedHeap 0).1.kids 0 ∧ (loadLinks (fixedSource 6) true 201 sharedHeap 0).1.par 9 = some 0 := by decide +kernel

/-- `bare` – an item 0 that got 22 children and lost 21 of them – and a link root 23 with the local child 24 and a link to it -/
def farHeap : Heap := (build bare (.node 0 (.str "L") .noValue Flags.linkRoot none [.node 0 (.str "Y") .noValue 0#6 none []])).1.modify 23 fun n => { n with link := some { path := [] } }

/-- C74 (defect). If `tag_idx` of a child of the source delivers a bare number (`C18_tag_idx_bare`) loading raises TypeError and the local children of the link root are lost. -/
theorem C74_far_cache_wrong : farHeap.kids 23 = [24] ∧ farHeap.kids 0 = [22] ∧ (loadLinks (fixedSource 0) false 201 farHeap 23).2 = .error .type ∧
    (loadLinks (fixedSource 0) false 201 farHeap 23).1.kids 23 = [] := by decide +kernel

end ITree
