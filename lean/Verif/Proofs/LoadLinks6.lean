import Verif.Proofs.LoadLinks5
import Verif.Spec.LoadLinks
/-
First loading of a link root.
-/
namespace ITree

theorem shape_facts : ∀ {T U : Tree}, T.shape = U.copyShape → T.pre.map Tree.facts = U.pre.map Tree.facts := by
  intro T
  induction T using Tree.ind with
  | H i t v f l ks ih =>
    intro U hU
    obtain ⟨j, t', v', f', l', us⟩ := U
    simp only [Tree.shape, Tree.copyShape, Shape.node.injEq] at hU
    obtain ⟨rfl, rfl, rfl, -, hk⟩ := hU
    have key : ∀ (ks : List Tree), (∀ k ∈ ks, ∀ {U : Tree}, k.shape = U.copyShape → k.pre.map Tree.facts = U.pre.map Tree.facts) →
        ∀ us : List Tree, Tree.shapeL ks = Tree.copyShapeL us → (Tree.preL ks).map Tree.facts = (Tree.preL us).map Tree.facts := by
      intro ks
      induction ks with
      | nil => intro _ us h; cases us with
        | nil => rfl
        | cons u us => simp [Tree.shapeL, Tree.copyShapeL] at h
      | cons k ks ihk =>
        intro hks us h
        cases us with
        | nil => simp [Tree.shapeL, Tree.copyShapeL] at h
        | cons u us =>
          simp only [Tree.shapeL, Tree.copyShapeL, List.cons.injEq] at h
          simp only [Tree.preL, List.map_append, hks k (by simp) h.1, ihk (fun k hk => hks k (by simp [hk])) us h.2]
    simp only [Tree.pre, List.map_cons, key ks ih us hk]
    rfl

theorem shapes_facts {Ts Us : List Tree} (h : Ts.map Tree.shape = Us.map Tree.copyShape) : (Tree.preL Ts).map Tree.facts = (Tree.preL Us).map Tree.facts := by
  induction Ts generalizing Us with
  | nil => cases Us with
    | nil => rfl
    | cons u us => simp at h
  | cons T Ts ih => cases Us with
    | nil => simp at h
    | cons u us =>
      simp only [List.map_cons, List.cons.injEq] at h
      simp only [Tree.preL, List.map_append, shape_facts h.1, ih h.2]

theorem chainUp_facts (l : List Tree) : (Tree.preL (chainUp l)).map Tree.facts = l.map Tree.linkedData := by
  have := congrArg (List.map fun x : Id × Tag × Val × Flags => x.2) (pre_chainUp l)
  simp only [List.map_map] at this
  exact this

theorem mergeKids_first {α : Type} (src : List LKey) : mergeKids ([] : List (LKey × Bool × α)) src = src.map .new := by
  have : ∀ (f : LKey → Bool) (l : List LKey), mergeLoop f l ([] : List (LEntry α)) = l.map .new := by
    intro f l
    induction l with
    | nil => rfl
    | cons k r ih => simp [mergeLoop, ih]
  exact this _ _

theorem mirrorOf_linked {h h' : Heap} {c : Id} {T : Tree} (R : Rep h' T) (hf : ∀ i ∈ T.ids, h.next ≤ i) (hs : T.shape = (linkedTree (h.tree c)).copyShape) : MirrorOf h h' c T.id := by
  refine ⟨T, rfl, R, hf, ?_, ?_⟩
  · rw [shape_facts hs, linkedTree, linkClone]
    simp only [Tree.pre, List.map_cons, chainUp_facts]
    obtain ⟨i, t, v, f, l, ks⟩ := (h.tree c)
    rfl
  · intro hL
    rw [hs]
    rw [lastOnly_eq] at hL
    rw [linkedTree, (chainUp_iff _ _ (Nat.le_refl _)).2 hL]
    obtain ⟨i, t, v, f, l, ks⟩ := (h.tree c)
    rfl

theorem collect_entry (inSrc : LKey → Bool) (key : LKey) (z : Id) (k : LKey) (c : Bool) : ∀ (E : List (LEntry Id)) (acc : List (LKey × LOut Id)),
    LOut.old z k c ∈ (collect inSrc key E acc).map (·.2) → LOut.old z k c ∈ acc.map (·.2) ∨ (k, some z) ∈ E := by
  intro E
  induction E with
  | nil => intro acc h; exact .inl h
  | cons e r ih =>
    obtain ⟨k', i⟩ := e
    intro acc h
    rw [collect] at h
    split at h
    · rw [List.map_append, List.mem_append] at h
      rcases h with h | h
      · exact .inl h
      · cases i with
        | none => simp [entryOut] at h
        | some y => simp [entryOut] at h; right; simp [h.1, h.2.1]
    · split at h
      · rcases ih _ h with h | h
        · simp at h
        · exact .inr (by simp [h])
      · rcases ih _ h with h | h
        · cases i with
          | none => exact .inl h
          | some y =>
            simp only [addLocal, List.map_append, List.mem_append] at h
            rcases h with h | h
            · exact .inl h
            · simp at h; right; simp [h.1, h.2.1]
        · exact .inr (by simp [h])

theorem mergeLoop_entry (inSrc : LKey → Bool) (z : Id) (k : LKey) (c : Bool) : ∀ (src : List LKey) (E : List (LEntry Id)), LOut.old z k c ∈ mergeLoop inSrc src E → (k, some z) ∈ E := by
  intro src
  induction src with
  | nil =>
    intro E h
    simp only [mergeLoop, List.mem_filterMap, Option.map_eq_some_iff] at h
    obtain ⟨⟨k', i⟩, he, y, hy, h⟩ := h
    simp only [LOut.old.injEq] at h
    simp only at hy
    rw [← h.1, ← h.2.1, ← hy]; exact he
  | cons key rest ih =>
    intro E h
    rw [mergeLoop] at h
    split at h
    · rw [List.mem_append] at h
      rcases h with h | h
      · rcases collect_entry inSrc key z k c E [] h with h | h
        · simp at h
        · exact h
      · have := ih _ h
        exact (List.mem_filter.1 this).1
    · simp only [List.mem_cons, reduceCtorEq, false_or] at h
      exact ih _ h

theorem localEntries_mem {α : Type} (l : List (LKey × Bool × α)) : ∀ b k x, (k, some x) ∈ localEntries b l → ∃ f, (k, f, x) ∈ l := by
  induction l with
  | nil => intro b k x h; simp [localEntries] at h
  | cons e r ih =>
    obtain ⟨k', f, y⟩ := e
    intro b k x h
    rw [localEntries] at h
    split at h
    · simp only [List.mem_cons, Prod.mk.injEq, reduceCtorEq, and_false, false_or] at h
      obtain ⟨f', hf⟩ := ih _ _ _ h
      exact ⟨f', by simp [hf]⟩
    · simp only [List.mem_cons, Prod.mk.injEq, Option.some.injEq] at h
      rcases h with ⟨rfl, rfl⟩ | h
      · exact ⟨f, by simp⟩
      · obtain ⟨f', hf⟩ := ih _ _ _ h
        exact ⟨f', by simp [hf]⟩

theorem TakeSpec.frame {h h' : Heap} {p s : Id} {nid : LKey → Id} (W : WF h) (T : TakeSpec h h' p s nid) : LoadFrame h h' p := by
  refine ⟨T.next, T.tag, T.value, T.flags, T.kids_o, T.par, fun i hi hp hn => T.link i hi hp fun k hk => hn ?_⟩
  obtain ⟨f, hf⟩ := localEntries_mem _ _ _ _ (mergeLoop_entry _ _ _ _ _ _ hk)
  simp only [oldKids, List.mem_map, Prod.mk.injEq] at hf
  obtain ⟨e, he, _, _, rfl⟩ := hf
  rw [← numbered_items h p]
  exact List.mem_map_of_mem he

/-- The call, if it has to load: the link was not loaded yet or loading is forced, and the source is found. -/
theorem loadLinks_active {env : LinkEnv} {force : Bool} {n : Nat} {h g : Heap} {p s : Id} {lk : LinkSt} (hl : (h.node p).link = some lk) (ha : force = true ∨ lk.loaded = false) (hf : env.find h p = (g, .ok s)) :
    loadLinks env force (n + 1) h p = takeOver (loadLinks env force n) g p s := by
  have : loadActive env h p lk force = (h, .ok true) := by
    rw [loadActive, if_pos]
    rcases ha with h | h <;> simp [h]
  simp only [loadLinks, hl, this, hf]

theorem first_load (env : LinkEnv) (force : Bool) (n : Nat) (h g : Heap) (p s : Id) (lk : LinkSt) (hl : (h.node p).link = some lk) (ha : force = true ∨ lk.loaded = false)
    (hf : env.find h p = (g, .ok s)) (L : Loadable g p s) (hk : g.kids p = []) :
    ∃ h', loadLinks env force (n + 1) h p = (h', .ok true) ∧ WF h' ∧ Forest h' ∧ LoadFrame g h' p ∧ List.Forall₂ (MirrorOf g h') (g.kids s) (h'.kids p) ∧
      (h'.node p).link = (g.node p).link.map fun l => { l with tags := (((numbered g s).map Prod.fst).map (·.1)).eraseDups, keys := (numbered g s).map Prod.fst, loaded := true } := by
  obtain ⟨h', nid, e, T, -⟩ := takeOver_spec (load := loadLinks env force n) L.wf L.forest L.lt L.apart L.plain L.real L.keys
  refine ⟨h', (loadLinks_active hl ha hf).trans e, T.wf, T.forest, T.frame L.wf, ?_, T.link_p⟩
  have h0 : oldKids g p = [] := by simp [oldKids, numbered, hk]
  have hkp := T.kids_p
  rw [h0, mergeKids_first, List.map_map, List.map_map] at hkp
  rw [hkp, ← numbered_items g s, List.forall₂_map_left_iff, List.forall₂_map_right_iff, List.forall₂_same]
  intro e he
  obtain ⟨U, u1, u2, u3, u4⟩ := T.new e he
  have := mirrorOf_linked u2 (fun i hi => (u4 i hi).1) u3
  rw [u1] at this
  exact this

end ITree
