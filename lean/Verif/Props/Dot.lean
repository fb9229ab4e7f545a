import Verif.Spec.Dot
import Verif.Proofs.Fresh
import Verif.Props.Deep
import Verif.Props.Defects
/-
C70: the graphviz description of a tree.
-/
namespace ITree

variable {ms : ModelSet} {h : Heap}

theorem dotEscape_eq (s : List Char) : dotEscape s = braces s := by simp only [dotEscape, braces, List.flatMap_def]

theorem dotColor_eq (f : Flags) : dotColor f = colourText f := by
  unfold dotColor colourText
  by_cases h1 : f.has Flags.linked = true
  · simp only [h1, if_true]
  · have : f.has (Flags.readOnlyValue ||| Flags.linked) = f.has Flags.readOnlyValue := by
      revert h1
      revert f
      decide +kernel
    simp only [h1, this]

/-- the item can be shown: it is no link root with a value, and its number among the items with its tag is stored -/
structure Showable (h : Heap) (y : Id) : Prop where
  plain : (h.flags y).has Flags.linkRoot = true → (h.node y).value = .noValue
  known : h.par y = none ∨ FreshFam h y

theorem dotContent_eq (P : DotReprs) (label : List Char) (v : Val) (f : Flags) (l : Option LinkSt) (hp : f.has Flags.linkRoot = true → v = .noValue) :
    dotContent P label v f l = .ok (" [label=\"".toList ++ label ++ fieldOf P f l v ++ "\"".toList) := by
  unfold dotContent
  cases v <;> first
    | rfl
    | (have : f.has Flags.linkRoot = false := by
         cases e : f.has Flags.linkRoot with
         | false => rfl
         | true => cases hp e
       simp only [this, Bool.false_eq_true, if_false, fieldOf]
       simp [List.append_assoc])

theorem dot_item {W : WF h} {T : Tree} (R : Rep h T) (S : Showable h T.id) (P : DotReprs) (n : Nat) :
    ∃ key, h.tagIdx T.id = (h, .ok key) ∧ dotItem P n key T = .ok (nodeText P h n T.id) := by
  obtain ⟨y, t, v, f, l, ks⟩ := T
  simp only [Rep] at R
  obtain ⟨r1, r2, r3, r4, r5, r6⟩ := R
  simp only [Tree.id] at S ⊢
  have key : ∃ key, h.tagIdx y = (h, .ok key) ∧ dotLabel P key t = .ok (callText P h y) := by
    rcases S.known with hp | F
    · refine ⟨.none, ?_, ?_⟩
      · have : (h.node y).parent = none := by
          cases e : (h.node y).parent with
          | none => rfl
          | some r => simp [Heap.par, e] at hp
        simp [Heap.tagIdx, this]
      · simp only [dotLabel, dotTagLabel, callText, hp, r1]; rfl
    · obtain ⟨q, m, hq, hm, e⟩ := tagIdx_of_fresh W F
      refine ⟨_, e, ?_⟩
      have hpar := par_child W hq
      have hidx : ((h.kids q).filter fun c => h.tag c = h.tag y).idxOf y = m := by
        have nd : ((h.kids q).filter fun c => h.tag c = h.tag y).Nodup := (W.kids_nodup q).filter _
        obtain ⟨hl, hg⟩ := List.getElem?_eq_some_iff.1 hm
        have := nd.idxOf_getElem m hl
        rw [show ((h.kids q).filter fun c => h.tag c = h.tag y)[m]'hl = y from hg] at this
        exact this
      simp only [dotLabel, dotKeyLabel, callText, hpar, hidx]
      rfl
  obtain ⟨key, e, hl⟩ := key
  refine ⟨key, e, ?_⟩
  have hp : f.has Flags.linkRoot = true → v = .noValue := by rw [← r3, ← r2]; exact S.plain
  simp only [dotItem, Tree.tag, Tree.value, Tree.flags, Tree.link, hl, dotContent_eq P _ v f l hp, dotEscape_eq, dotColor_eq, nodeText, fieldText, r2, r3, r4, dotName]
  simp only [List.append_assoc]
  rfl

/-- the filter as a function -/
def filterFn (p : Option (Id → Bool)) : Id → Bool := p.getD fun _ => true

theorem passes_fn (p : Option (Id → Bool)) (T : Tree) : passes p T = filterFn p T.id := by cases p <;> rfl

theorem dot_kids (W : WF h) (P : DotReprs) (p : Option (Id → Bool)) (num : Id → Nat) (ts : List Tree) : ∀ (n : Nat) (q : Id),
    (∀ k ∈ ts, Rep h k ∧ h.par k.id = some q) → (∀ y ∈ Tree.preFL (filterFn p) ts, Showable h y) → (∀ j y, (Tree.preFL (filterFn p) ts)[j]? = some y → num y = n + 1 + j) →
    ∃ o, dotKids P p h (dotName P (num q)) n ts = (h, .ok (n + (Tree.preFL (filterFn p) ts).length, o)) ∧ o.flatten = (Tree.preFL (filterFn p) ts).flatMap (nodeAndEdge P h num) := by
  refine Tree.rec_1 (motive_1 := fun T => ∀ (n : Nat), Rep h T → (∀ y ∈ Tree.preFL (filterFn p) T.kids, Showable h y) →
      (∀ j y, (Tree.preFL (filterFn p) T.kids)[j]? = some y → num y = n + 1 + j) →
      ∃ o, dotBelow P p h (dotName P (num T.id)) n T = (h, .ok (n + (Tree.preFL (filterFn p) T.kids).length, o)) ∧
        o.flatten = (Tree.preFL (filterFn p) T.kids).flatMap (nodeAndEdge P h num))
    (motive_2 := fun ts => ∀ (n : Nat) (q : Id), (∀ k ∈ ts, Rep h k ∧ h.par k.id = some q) → (∀ y ∈ Tree.preFL (filterFn p) ts, Showable h y) →
      (∀ j y, (Tree.preFL (filterFn p) ts)[j]? = some y → num y = n + 1 + j) →
      ∃ o, dotKids P p h (dotName P (num q)) n ts = (h, .ok (n + (Tree.preFL (filterFn p) ts).length, o)) ∧
        o.flatten = (Tree.preFL (filterFn p) ts).flatMap (nodeAndEdge P h num)) ?_ ?_ ?_ ts
  · intro i t v f l ks ih n R hs hn
    simp only [Rep, repL_iff] at R
    obtain ⟨_, _, _, _, hk, hr⟩ := R
    simp only [dotBelow, Tree.kids, Tree.id]
    exact ih n i (fun k hkm => ⟨hr k hkm, par_child W (by rw [hk]; exact List.mem_map_of_mem hkm)⟩) hs hn
  · intro n q _ _ _
    exact ⟨[], rfl, rfl⟩
  · intro k ks ihk ih n q hr hs hn
    obtain ⟨Rk, pk⟩ := hr k (by simp)
    have ePre : Tree.preFL (filterFn p) (k :: ks) = (if filterFn p k.id then k.id :: Tree.preFL (filterFn p) k.kids else []) ++ Tree.preFL (filterFn p) ks := by
      obtain ⟨i, t, v, f, l, kk⟩ := k
      rfl
    rw [ePre] at hs hn ⊢
    cases hb : filterFn p k.id with
    | false =>
      simp only [hb, Bool.false_eq_true, if_false, List.nil_append] at hs hn ⊢
      obtain ⟨o, e1, e2⟩ := ih n q (fun k hk => hr k (by simp [hk])) hs hn
      exact ⟨o, by simp only [dotKids, passes_fn, hb, if_true, e1], e2⟩
    | true =>
      simp only [hb, if_true, List.cons_append] at hs hn ⊢
      have nk : num k.id = n + 1 := by have := hn 0 k.id (by simp); simpa using this
      obtain ⟨key, et, ei⟩ := dot_item (W := W) Rk (hs k.id (by simp)) P (n + 1)
      obtain ⟨o, e1, e2⟩ := ihk (n + 1) Rk (fun y hy => hs y (by simp [hy])) (fun j y hj => by
        have := hn (j + 1) y (by
          rw [List.getElem?_cons_succ, List.getElem?_append_left (List.getElem?_eq_some_iff.1 hj).1]; exact hj)
        omega)
      obtain ⟨o', e3, e4⟩ := ih (n + 1 + (Tree.preFL (filterFn p) k.kids).length) q (fun k hk => hr k (by simp [hk])) (fun y hy => hs y (by simp [hy])) (fun j y hj => by
        have := hn (j + (Tree.preFL (filterFn p) k.kids).length + 1) y (by
          rw [List.getElem?_cons_succ, List.getElem?_append_right (by omega)]
          simpa using hj)
        omega)
      rw [nk] at e1
      refine ⟨[['\n'], nodeText P h (n + 1) k.id ++ [']', ';'], dotEdge (dotName P (num q)) (dotName P (n + 1)) (k.flags.has Flags.linked)] ++ o ++ o', ?_, ?_⟩
      · simp only [dotKids, passes_fn, hb, Bool.true_eq_false, if_false, et, ei, e1, e3]
        simp only [List.length_cons, List.length_append, Prod.mk.injEq, Except.ok.injEq, true_and, and_true]
        omega
      · have fl : k.flags = h.flags k.id := by
          obtain ⟨i, t, v, f, l, kk⟩ := k
          simp only [Rep] at Rk
          exact Rk.2.2.1.symm
        simp only [List.flatten_append, e2, e4, List.flatMap_cons, List.flatMap_append, List.flatten_cons, List.flatten_nil, nodeAndEdge, nk, pk, Option.getD_some, dotEdge, dotName, fl,
          List.append_assoc, List.append_nil, List.cons_append, List.nil_append]
        rfl

/-- C70 (partial: the numbers of the items shown are stored, no link root with a value is shown). The graph description consists of the head line, the node statement of the start item with number 0 and
for every item below that is (hierarchically) selected by the filter, in pre-order, its node statement and the edge from its parent; the number of an item is its position in this order.  Nothing is
changed. -/
theorem C70_dot_partial (H : Reach ms h) (P : DotReprs) (p : Option (Id → Bool)) (x : Id) (hs : ∀ y ∈ x :: Tree.preFL (filterFn p) (h.tree x).kids, Showable h y) :
    dotRender P p h x = (h, .ok ("graph iTree {\n    node [shape=record, fillcolor=cadetblue3, style=\"rounded,filled\"];\n".toList ++ "\n".toList ++
      nodeText P h 0 x ++ ", fillcolor=cadetblue];".toList ++
      (Tree.preFL (filterFn p) (h.tree x).kids).flatMap (nodeAndEdge P h (dotNum (filterFn p) (h.tree x))) ++ "\n}".toList)) := by
  have C := H.core
  obtain ⟨T, hTid, RT⟩ := C.forest.exists_rep x
  have eT : h.tree x = T := by rw [← hTid]; exact RT.tree C.wf
  rw [eT] at hs ⊢
  subst hTid
  have nd : (T.id :: Tree.preFL (filterFn p) T.kids).Nodup := by
    have n1 := RT.ids_nodup C.wf C.forest
    have sub : (T.id :: Tree.preFL (filterFn p) T.kids).Sublist T.ids := by
      obtain ⟨i, t, v, f, l, ks⟩ := T
      rw [Tree.ids_node, ← preFL_true]
      exact (preFL_sublist _ _).cons_cons _
    exact n1.sublist sub
  have hnum : ∀ j y, (Tree.preFL (filterFn p) T.kids)[j]? = some y → dotNum (filterFn p) T y = 0 + 1 + j := by
    intro j y hj
    obtain ⟨hl, hg⟩ := List.getElem?_eq_some_iff.1 hj
    have := nd.idxOf_getElem (j + 1) (by simpa using hl)
    simp only [List.getElem_cons_succ, hg] at this
    simp only [dotNum]
    omega
  have hn0 : dotNum (filterFn p) T T.id = 0 := by simp [dotNum]
  obtain ⟨key, et, ei⟩ := dot_item (W := C.wf) RT (hs T.id (by simp)) P 0
  obtain ⟨o, e1, e2⟩ : ∃ o, dotBelow P p h (dotName P 0) 0 T = (h, .ok (0 + (Tree.preFL (filterFn p) T.kids).length, o)) ∧
      o.flatten = (Tree.preFL (filterFn p) T.kids).flatMap (nodeAndEdge P h (dotNum (filterFn p) T)) := by
    obtain ⟨i, t, v, f, l, ks⟩ := T
    have R' := RT
    simp only [Rep, repL_iff] at R'
    obtain ⟨_, _, _, _, hk, hr⟩ := R'
    have := dot_kids C.wf P p (dotNum (filterFn p) (.node i t v f l ks)) ks 0 i (fun k hkm => ⟨hr k hkm, par_child C.wf (by rw [hk]; exact List.mem_map_of_mem hkm)⟩)
      (fun y hy => hs y (by simp only [Tree.kids]; simp [hy])) hnum
    simp only [dotBelow, Tree.kids] at this ⊢
    rw [show dotNum (filterFn p) (.node i t v f l ks) i = 0 from hn0] at this
    exact this
  simp only [dotRender, et, eT, ei, e1]
  simp only [List.flatten_append, e2, List.flatten_cons, List.flatten_nil, List.append_assoc, List.append_nil, List.cons_append, List.nil_append]
  rfl

/-- C70: the numbers are different for different items shown, and every item shown below the start item has its parent shown, with a smaller number: the description is a tree -/
theorem C70_tree (H : Reach ms h) (f : Id → Bool) (x : Id) :
    (∀ y ∈ x :: Tree.preFL f (h.tree x).kids, ∀ z ∈ x :: Tree.preFL f (h.tree x).kids, dotNum f (h.tree x) y = dotNum f (h.tree x) z → y = z) ∧
    (∀ y ∈ Tree.preFL f (h.tree x).kids, ∃ q, h.par y = some q ∧ q ∈ x :: Tree.preFL f (h.tree x).kids ∧ dotNum f (h.tree x) q < dotNum f (h.tree x) y) ∧
    (∀ y, y ∈ Tree.preFL f (h.tree x).kids ↔ MatchPath h f x y) := by
  have C := H.core
  obtain ⟨T, hTid, RT⟩ := C.forest.exists_rep x
  have eT : h.tree x = T := by rw [← hTid]; exact RT.tree C.wf
  rw [eT]
  subst hTid
  refine ⟨fun y hy z hz e => ?_, ?_, fun y => mem_preFL RT f y⟩
  · simp only [dotNum] at e
    exact (List.idxOf_inj hy).1 e
  · suffices A : ∀ (ts : List Tree) (q : Id) (pre : List Id), (∀ k ∈ ts, Rep h k ∧ h.par k.id = some q) → q ∈ pre → ∀ y ∈ Tree.preFL f ts, y ∉ pre → (Tree.preFL f ts).Nodup →
        (∀ z ∈ Tree.preFL f ts, z ∉ pre) → ∃ r, h.par y = some r ∧ r ∈ pre ++ Tree.preFL f ts ∧ (pre ++ Tree.preFL f ts).idxOf r < (pre ++ Tree.preFL f ts).idxOf y by
      obtain ⟨i, t, v, g, l, ks⟩ := T
      intro y hy
      have R' := RT
      simp only [Rep, repL_iff] at R'
      obtain ⟨_, _, _, _, hk, hr⟩ := R'
      have n1 := RT.ids_nodup C.wf C.forest
      rw [Tree.ids_node, ← preFL_true] at n1
      have n2 := n1.sublist ((preFL_sublist f ks).cons_cons i)
      rw [List.nodup_cons] at n2
      simp only [Tree.kids, Tree.id] at hy ⊢
      have ne : ∀ z ∈ Tree.preFL f ks, z ∉ [i] := fun z hz e => n2.1 (by simpa using List.mem_singleton.1 e ▸ hz)
      exact A ks i [i] (fun k hkm => ⟨hr k hkm, par_child C.wf (by rw [hk]; exact List.mem_map_of_mem hkm)⟩) (by simp) y hy (ne y hy) n2.2 ne
    intro ts
    refine Tree.rec_1 (motive_1 := fun T => ∀ (pre : List Id), Rep h T → T.id ∈ pre → ∀ y ∈ Tree.preFL f T.kids, y ∉ pre → (Tree.preFL f T.kids).Nodup →
        (∀ z ∈ Tree.preFL f T.kids, z ∉ pre) → ∃ r, h.par y = some r ∧ r ∈ pre ++ Tree.preFL f T.kids ∧ (pre ++ Tree.preFL f T.kids).idxOf r < (pre ++ Tree.preFL f T.kids).idxOf y)
      (motive_2 := fun ts => ∀ (q : Id) (pre : List Id), (∀ k ∈ ts, Rep h k ∧ h.par k.id = some q) → q ∈ pre → ∀ y ∈ Tree.preFL f ts, y ∉ pre → (Tree.preFL f ts).Nodup →
        (∀ z ∈ Tree.preFL f ts, z ∉ pre) → ∃ r, h.par y = some r ∧ r ∈ pre ++ Tree.preFL f ts ∧ (pre ++ Tree.preFL f ts).idxOf r < (pre ++ Tree.preFL f ts).idxOf y) ?_ ?_ ?_ ts
    · intro i t v g l ks ih pre R hq y hy hyp nd hz
      simp only [Rep, repL_iff] at R
      obtain ⟨_, _, _, _, hk, hr⟩ := R
      exact ih i pre (fun k hkm => ⟨hr k hkm, par_child C.wf (by rw [hk]; exact List.mem_map_of_mem hkm)⟩) hq y hy hyp nd hz
    · intro q pre _ _ y hy; simp [Tree.preFL] at hy
    · intro k ks ihk ih q pre hr hq y hy hyp nd hz
      obtain ⟨Rk, pk⟩ := hr k (by simp)
      have ePre : Tree.preFL f (k :: ks) = (if f k.id then k.id :: Tree.preFL f k.kids else []) ++ Tree.preFL f ks := by
        obtain ⟨i, t, v, g, l, kk⟩ := k
        rfl
      rw [ePre] at hy nd hz ⊢
      cases hb : f k.id with
      | false =>
        simp only [hb, Bool.false_eq_true, if_false, List.nil_append] at hy nd hz ⊢
        exact ih q pre (fun k hk => hr k (by simp [hk])) hq y hy hyp nd hz
      | true =>
        simp only [hb, if_true, List.cons_append] at hy nd hz ⊢
        rw [List.nodup_cons] at nd
        have nd2 := List.nodup_append.1 nd.2
        have mono : ∀ (a b : List Id) (r y : Id), r ∈ a → a.idxOf r < a.idxOf y → (a ++ b).idxOf r < (a ++ b).idxOf y := by
          intro a b r y ha hlt
          rw [List.idxOf_append_of_mem ha]
          by_cases hy : y ∈ a
          · rw [List.idxOf_append_of_mem hy]; exact hlt
          · rw [List.idxOf_append_of_notMem hy]
            have := List.idxOf_lt_length_of_mem ha
            omega
        rcases List.mem_cons.1 hy with rfl | hy
        · refine ⟨q, pk, by simp [hq], ?_⟩
          rw [List.idxOf_append_of_mem hq, List.idxOf_append_of_notMem hyp]
          have := List.idxOf_lt_length_of_mem hq
          omega
        · rcases List.mem_append.1 hy with hy | hy
          · have hne : y ≠ k.id := fun e => nd.1 (by simp [← e, hy])
            obtain ⟨r, a1, a2, a3⟩ := ihk (pre ++ [k.id]) Rk (by simp) y hy (by simp [hyp, hne]) nd2.1 (fun z hz' => by
              have h1 := hz z (by simp [hz'])
              have h2 : z ≠ k.id := fun e => nd.1 (by simp [← e, hz'])
              simp [h1, h2])
            refine ⟨r, a1, ?_, ?_⟩
            · simp only [List.append_assoc, List.cons_append, List.nil_append, List.mem_append, List.mem_cons] at a2 ⊢
              tauto
            · have := mono _ (Tree.preFL f ks) r y a2 a3
              simpa only [List.append_assoc, List.cons_append, List.nil_append] using this
          · have hne : y ≠ k.id := fun e => nd.1 (by simp [← e, hy])
            have hdis : ∀ z ∈ Tree.preFL f ks, z ∉ pre ++ k.id :: Tree.preFL f k.kids := by
              intro z hz'
              have h1 := hz z (by simp [hz'])
              have h2 : z ≠ k.id := fun e => nd.1 (by simp [← e, hz'])
              have h3 : z ∉ Tree.preFL f k.kids := fun e => nd2.2.2 z e z hz' rfl
              simp [h1, h2, h3]
            obtain ⟨r, a1, a2, a3⟩ := ih q (pre ++ k.id :: Tree.preFL f k.kids) (fun k hk => hr k (by simp [hk])) (by simp [hq]) y hy (hdis y hy) nd2.2.1 hdis
            refine ⟨r, a1, ?_, ?_⟩
            · simpa only [List.append_assoc, List.cons_append] using a2
            · simpa only [List.append_assoc, List.cons_append] using a3

/-! ### concrete cases -/

/-- one-digit texts -/
def dotR : DotReprs := ⟨fun _ i => "(t,".toList ++ [Char.ofNat (48 + i.toNat)] ++ ")".toList, fun _ => "t".toList, fun _ => "v".toList, fun _ => "iTLink()".toList, fun i => [Char.ofNat (48 + i.toNat)]⟩

/-- the hypothesis of `C70_dot_partial` holds in the demo state -/
example : ∀ y ∈ (0 : Nat) :: Tree.preFL (filterFn none) (demo.tree 0).kids, Showable demo y := by
  have e : Tree.preFL (filterFn none) (demo.tree 0).kids = [1, 4, 2, 3, 5] := by decide +kernel
  rw [e]
  intro y hy
  simp only [List.mem_cons, List.not_mem_nil, or_false] at hy
  rcases hy with rfl | rfl | rfl | rfl | rfl | rfl
  · exact ⟨fun h => absurd h (by decide +kernel), .inl (by decide +kernel)⟩
  · exact ⟨fun h => absurd h (by decide +kernel), .inr ⟨0, by decide +kernel, _, rfl, by decide +kernel, by decide +kernel⟩⟩
  · exact ⟨fun h => absurd h (by decide +kernel), .inr ⟨1, by decide +kernel, _, rfl, by decide +kernel, by decide +kernel⟩⟩
  · exact ⟨fun h => absurd h (by decide +kernel), .inr ⟨0, by decide +kernel, _, rfl, by decide +kernel, by decide +kernel⟩⟩
  · exact ⟨fun h => absurd h (by decide +kernel), .inr ⟨0, by decide +kernel, _, rfl, by decide +kernel, by decide +kernel⟩⟩
  · exact ⟨fun h => absurd h (by decide +kernel), .inr ⟨0, by decide +kernel, _, rfl, by decide +kernel, by decide +kernel⟩⟩

/-- wrong: an outdated stored position makes `tag_idx` a bare number and the renderer raises TypeError -/
theorem C70_outdated_wrong (P : DotReprs) : (dotRender P none demoBad 3).2 = .error .type := by
  have e1 : (demoBad.tagIdx 3).2 = .ok (.bare 1) := C18_tag_idx_bare_any_cache
  simp only [dotRender, e1, dotItem, dotLabel]
  rfl

/-- wrong: a link root with a value cannot be shown: TypeError -/
theorem C70_link_value_wrong (P : DotReprs) (label : List Char) (v : Val) (hv : v ≠ .noValue) (f : Flags) (hf : f.has Flags.linkRoot = true) (l : Option LinkSt) :
    dotContent P label v f l = .error .type := by
  cases v <;> first | exact absurd rfl hv | simp [dotContent, hf]

/-- wrong: quotation marks in the text of a value are not escaped and end the label: whenever `repr(value)` contains one (as for "it's"), the statement has more than the two marks around the label -/
theorem C70_quotes_wrong (P : DotReprs) (y : Id) (n : Nat) (hv : (h.node y).value ≠ .noValue) (hq : '"' ∈ P.val (h.node y).value) : 3 ≤ (nodeText P h n y).count '"' := by
  have cb : ∀ s : List Char, (braces s).count '"' = s.count '"' := by
    intro s
    induction s with
    | nil => rfl
    | cons c s ih =>
      have : braces (c :: s) = (if c = '{' ∨ c = '}' then ['\\', c] else [c]) ++ braces s := rfl
      rw [this, List.count_append, ih, List.count_cons]
      split
      · rename_i hc
        rcases hc with rfl | rfl <;> simp
      · simp [List.count_cons]; omega
  have hf : fieldText P h y = "| value=".toList ++ P.val (h.node y).value := by
    unfold fieldText fieldOf
    split
    · rename_i e; exact absurd e hv
    · rfl
  have h1 := List.count_pos_iff.2 hq
  have h2 : " [label=\"".toList.count '"' = 1 := by decide +kernel
  have h3 : "\"".toList.count '"' = 1 := by decide +kernel
  rw [nodeText, cb, hf]
  simp only [List.count_append, h2, h3]
  omega

end ITree
