import Verif.Proofs.Equal
import Verif.Model.Query
import Verif.Props.Copy
/-
C32: `==` and `hash`.
-/
namespace ITree

variable {ms : ModelSet} {h : Heap}

/-- all values stored in the tree are proper Python values (dicts with pairwise different keys) -/
def ValuesOK (T : Tree) : Prop := ∀ S ∈ T.pre, S.value.OK

theorem valueEqual_symm {a b : Val} (oa : a.OK) (ob : b.OK) : valueEqual a b = valueEqual b a := by
  rw [Bool.eq_iff_iff]
  simp only [valueEqual, Bool.and_eq_true, beq_iff_eq]
  exact ⟨fun h => ⟨h.1.symm, pyEq_symm oa ob h.2⟩, fun h => ⟨h.1.symm, pyEq_symm ob oa h.2⟩⟩

theorem pairEq_symm {a b : Tree} (oa : a.value.OK) (ob : b.value.OK) : pairEq a b = pairEq b a := by
  have : Val.pyEq a.value b.value = Val.pyEq b.value a.value := by
    rw [Bool.eq_iff_iff]; exact ⟨pyEq_symm oa ob, pyEq_symm ob oa⟩
  have e1 : (a.tag == b.tag) = (b.tag == a.tag) := Bool.beq_comm
  have e2 : (linkArgs a == linkArgs b) = (linkArgs b == linkArgs a) := Bool.beq_comm
  have e3 : (a.flags == b.flags) = (b.flags == a.flags) := Bool.beq_comm
  simp only [pairEq, argsEq, valueEqual_symm oa ob, this, e1, e2, e3]

theorem zip_all_swap {α : Type} {q : α → α → Bool} : ∀ (a b : List α), (∀ x ∈ a, ∀ y ∈ b, q x y = q y x) →
    ((a.zip b).all fun p => q p.1 p.2) = (b.zip a).all fun p => q p.1 p.2
  | [], b, _ => by simp
  | _ :: _, [], _ => by simp
  | x :: a, y :: b, h => by
    simp only [List.zip_cons_cons, List.all_cons, h x (by simp) y (by simp)]
    rw [zip_all_swap a b fun u hu v hv => h u (by simp [hu]) v (by simp [hv])]

theorem deep_sub_pre {T S : Tree} (h : S ∈ T.deep) : S ∈ T.pre := by
  cases T; simp only [Tree.deep, Tree.kids] at h; simp only [Tree.pre, List.mem_cons]; exact .inr h

theorem tree_pyEq_symm {A B : Tree} (oa : ValuesOK A) (ob : ValuesOK B) : A.pyEq B = B.pyEq A := by
  have e1 : (A.tag == B.tag) = (B.tag == A.tag) := Bool.beq_comm
  have e2 : (A.kids.length == B.kids.length) = (B.kids.length == A.kids.length) := Bool.beq_comm
  have e3 := valueEqual_symm (oa _ (Tree.self_mem_pre A)) (ob _ (Tree.self_mem_pre B))
  have e4 := zip_all_swap (q := pairEq) A.deep B.deep fun x hx y hy => pairEq_symm (oa _ (deep_sub_pre hx)) (ob _ (deep_sub_pre hy))
  simp only [Tree.pyEq, e1, e2, e3, e4]

/-- C32. every item equals itself -/
theorem C32_refl (h : Heap) (a : Id) : h.eqItem a a = true := by simp [Heap.eqItem]

/-- C32. `a == b` is the same as `b == a`, for all items of every reachable state -/
theorem C32_symm (_H : Reach ms h) {A B : Tree} (ra : Rep h A) (rb : Rep h B) (oa : ValuesOK A) (ob : ValuesOK B) :
    h.eqItem A.id B.id = h.eqItem B.id A.id := by
  have e : (A.id == B.id) = (B.id == A.id) := Bool.beq_comm
  simp only [Heap.eqItem, ra.tree _H.core.wf, rb.tree _H.core.wf, tree_pyEq_symm oa ob, e]

/-- C32. equal items have the same tag, the same number of children, equal values of the same type, and the values found by going through both trees in parallel are equal -/
theorem C32_equal_implies (H : Reach ms h) {A B : Tree} (ra : Rep h A) (rb : Rep h B) (hne : A.id ≠ B.id) (he : h.eqItem A.id B.id = true) :
    A.tag = B.tag ∧ A.kids.length = B.kids.length ∧ A.value.ty = B.value.ty ∧ Val.pyEq A.value B.value = true ∧
      ∀ (n : Nat) (S S' : Tree), A.deep[n]? = some S → B.deep[n]? = some S' → Val.pyEq S.value S'.value = true := by
  simp only [Heap.eqItem, ra.tree H.core.wf, rb.tree H.core.wf, Tree.pyEq, valueEqual, Bool.or_eq_true, beq_iff_eq, hne, false_or, Bool.and_eq_true, List.all_eq_true] at he
  obtain ⟨⟨⟨h1, h2⟩, h3, h4⟩, h5⟩ := he
  refine ⟨h1, h2, h3, h4, fun n S S' g g' => ?_⟩
  have := h5 (S, S') (List.mem_of_getElem? (i := n) (by rw [List.getElem?_zip_eq_some]; exact ⟨g, g'⟩))
  simp only [pairEq, argsEq, valueEqual, Bool.or_eq_true, Bool.and_eq_true] at this
  rcases this with h | h
  · exact h.1.1.2
  · exact h.2

mutual
/-- tags, values and order only -/
def Shape.strip : Shape → Shape
  | .node t v _ _ ks => .node t v 0#6 none (Shape.stripL ks)
def Shape.stripL : List Shape → List Shape
  | [] => []
  | k :: ks => k.strip :: Shape.stripL ks
end

theorem stripL_eq (l : List Shape) : Shape.stripL l = l.map Shape.strip := by
  induction l with
  | nil => rfl
  | cons a l ih => simp [Shape.stripL, ih]

theorem strip_deep {A B : Tree} (h : A.shape.strip = B.shape.strip) :
    A.tag = B.tag ∧ A.value = B.value ∧ A.kids.length = B.kids.length ∧ A.pre.map Tree.value = B.pre.map Tree.value ∧ A.deep.map Tree.value = B.deep.map Tree.value := by
  induction A using Tree.ind generalizing B with
  | H i t v f l ks ih =>
    obtain ⟨i', t', v', f', l', ks'⟩ := B
    simp only [Tree.shape, Shape.strip, Shape.node.injEq, shapeL_eq, stripL_eq, List.map_map] at h
    obtain ⟨rfl, rfl, _, _, h5⟩ := h
    have hlen : ks.length = ks'.length := by simpa using congrArg List.length h5
    have hd : (Tree.preL ks).map Tree.value = (Tree.preL ks').map Tree.value := by
      simp only [preL_eq, List.map_flatMap]
      clear hlen
      induction ks generalizing ks' with
      | nil => cases ks' <;> simp_all
      | cons a ks ihk =>
        cases ks' with
        | nil => simp at h5
        | cons b ks' =>
          simp only [List.map_cons, List.cons.injEq, Function.comp_apply] at h5
          simp only [List.flatMap_cons, (ih a (by simp) h5.1).2.2.2.1]
          rw [ihk (fun k hk => ih k (by simp [hk])) _ h5.2]
    exact ⟨rfl, rfl, hlen, by simp [Tree.pre, Tree.value, hd], hd⟩

theorem strip_pyEq {A B : Tree} (oa : ValuesOK A) (h : A.shape.strip = B.shape.strip) : A.pyEq B = true := by
  obtain ⟨h1, h2, h3, _, h5⟩ := strip_deep h
  have r : ∀ v : Val, v.OK → valueEqual v v = true := fun v ok => by simp [valueEqual, pyEq_refl ok]
  simp only [Tree.pyEq, h1, h3, ← h2, r _ (oa _ (Tree.self_mem_pre A)), beq_self_eq_true, Bool.and_true, Bool.true_and, List.all_eq_true]
  rintro ⟨S, S'⟩ hm
  obtain ⟨n, hn⟩ := List.getElem?_of_mem hm
  rw [List.getElem?_zip_eq_some] at hn
  have : S.value = S'.value := by
    have a := congrArg (fun l : List Val => l[n]?) h5
    simpa [hn.1, hn.2] using a
  simp only [pairEq, ← this, r _ (oa _ (deep_sub_pre (List.mem_of_getElem? hn.1))), Bool.or_true]

/-- C32. items whose trees agree in tags, values and order are equal (flags, links and parents do not count) -/
theorem C32_same_content_equal (H : Reach ms h) {A B : Tree} (ra : Rep h A) (rb : Rep h B) (oa : ValuesOK A) (he : A.shape.strip = B.shape.strip) :
    h.eqItem A.id B.id = true := by
  simp only [Heap.eqItem, ra.tree H.core.wf, rb.tree H.core.wf, strip_pyEq oa he, Bool.or_true]

theorem copyShape_strip (T : Tree) : T.copyShape.strip = T.shape.strip := by
  induction T using Tree.ind with
  | H i t v f l ks ih =>
    simp only [Tree.copyShape, Tree.shape, Shape.strip, copyShapeL_eq, shapeL_eq, stripL_eq, List.map_map, Shape.node.injEq, true_and]
    exact List.map_congr_left fun k hk => ih k hk

/-- C32, C31. a copy equals the original -/
theorem C32_C31_copy_equal (H : Reach ms h) {T : Tree} (R : Rep h T) (hT : T.id < h.next) (ok : ValuesOK T) :
    ∃ (h' : Heap) (c : Id), Delivers (fun n => iterCopy n h T.id) (.ok (h', c)) ∧ h'.eqItem T.id c = true ∧ h'.eqItem c T.id = true := by
  obtain ⟨h', T', d, r', s, _, _, _, _, r⟩ := C31_copy H R hT
  have C := H.core
  have W' : WF h' := by
    obtain ⟨N, hN⟩ := d
    obtain ⟨M, hM⟩ := iterCopy_delivers C.wf C.forest hT
    have a := hN (max N M) (by omega)
    have b := hM (max N M) (by omega)
    rw [a] at b
    simp only [Option.some.injEq, Except.ok.injEq] at b
    rw [show h' = (copyItem h T.id).1 from congrArg Prod.fst b]
    exact (copyItem_spec C.wf T.id).wf
  have ss : T.shape.strip = T'.shape.strip := by rw [s, copyShape_strip]
  have ok' : ValuesOK T' := by
    intro S hS
    have := (strip_deep ss).2.2.2.1
    have m : S.value ∈ T'.pre.map Tree.value := List.mem_map_of_mem hS
    rw [← this] at m
    obtain ⟨S0, h0, e⟩ := List.mem_map.1 m
    rw [← e]; exact ok S0 h0
  refine ⟨h', T'.id, d, ?_, ?_⟩
  · simp only [Heap.eqItem, r.tree W', r'.tree W', strip_pyEq ok ss, Bool.or_true]
  · simp only [Heap.eqItem, r.tree W', r'.tree W', strip_pyEq ok' ss.symm, Bool.or_true]

theorem valueEqual_trans {a b c : Val} (oa : a.OK) (ob : b.OK) (oc : c.OK) (h1 : valueEqual a b = true) (h2 : valueEqual b c = true) : valueEqual a c = true := by
  simp only [valueEqual, Bool.and_eq_true, beq_iff_eq] at *
  exact ⟨h1.1.trans h2.1, pyEq_trans oa ob oc h1.2 h2.2⟩

/-- equal values of the two trees have the same type: no `True` against `1` -/
def SameTypes (A B : Tree) : Prop := ∀ S ∈ A.pre, ∀ S' ∈ B.pre, Val.pyEq S.value S'.value = true → S.value.ty = S'.value.ty

theorem pairEq_value {S S' : Tree} (h : Val.pyEq S.value S'.value = true → S.value.ty = S'.value.ty) (he : pairEq S S' = true) : valueEqual S.value S'.value = true := by
  simp only [pairEq, argsEq, Bool.or_eq_true, Bool.and_eq_true] at he
  rcases he with e | e
  · simp only [valueEqual, Bool.and_eq_true, beq_iff_eq]; exact ⟨h e.1.1.2, e.1.1.2⟩
  · exact e

/-- C32 (partial). `==` is transitive among trees with the same number of items whose equal values have equal types. Missing: without these conditions it is not (`C32_not_transitive`). -/
theorem C32_trans_partial (H : Reach ms h) {A B C : Tree} (ra : Rep h A) (rb : Rep h B) (rc : Rep h C) (oa : ValuesOK A) (ob : ValuesOK B) (oc : ValuesOK C)
    (tab : SameTypes A B) (tbc : SameTypes B C) (lab : A.deep.length = B.deep.length) (lbc : B.deep.length = C.deep.length)
    (h1 : h.eqItem A.id B.id = true) (h2 : h.eqItem B.id C.id = true) : h.eqItem A.id C.id = true := by
  have W := H.core.wf
  have key : A.pyEq B = true → B.pyEq C = true → A.pyEq C = true := by
    intro p1 p2
    simp only [Tree.pyEq, Bool.and_eq_true, beq_iff_eq, List.all_eq_true] at p1 p2 ⊢
    obtain ⟨⟨⟨a1, a2⟩, a3⟩, a4⟩ := p1
    obtain ⟨⟨⟨b1, b2⟩, b3⟩, b4⟩ := p2
    refine ⟨⟨⟨a1.trans b1, a2.trans b2⟩, valueEqual_trans (oa _ A.self_mem_pre) (ob _ B.self_mem_pre) (oc _ C.self_mem_pre) a3 b3⟩, ?_⟩
    rintro ⟨S, S''⟩ hm
    obtain ⟨n, hn⟩ := List.getElem?_of_mem hm
    rw [List.getElem?_zip_eq_some] at hn
    have hlt : n < B.deep.length := by rw [← lab]; exact (List.getElem?_eq_some_iff.1 hn.1).1
    have hb := List.getElem?_eq_getElem hlt
    have e1 := a4 (S, B.deep[n]) (List.mem_of_getElem? (i := n) (by rw [List.getElem?_zip_eq_some]; exact ⟨hn.1, hb⟩))
    have e2 := b4 (B.deep[n], S'') (List.mem_of_getElem? (i := n) (by rw [List.getElem?_zip_eq_some]; exact ⟨hb, hn.2⟩))
    have mA := deep_sub_pre (List.mem_of_getElem? hn.1)
    have mB := deep_sub_pre (List.mem_of_getElem? hb)
    have mC := deep_sub_pre (List.mem_of_getElem? hn.2)
    have v1 := pairEq_value (tab _ mA _ mB) e1
    have v2 := pairEq_value (tbc _ mB _ mC) e2
    simp only [pairEq, valueEqual_trans (oa _ mA) (ob _ mB) (oc _ mC) v1 v2, Bool.or_true]
  simp only [Heap.eqItem, ra.tree W, rb.tree W, rc.tree W, Bool.or_eq_true, beq_iff_eq] at *
  rcases h1 with e | p1
  · have : A = B := by rw [← ra.tree W, ← rb.tree W, e]
    subst this; exact h2
  · rcases h2 with e | p2
    · have : B = C := by rw [← rb.tree W, ← rc.tree W, e]
      subst this; exact .inr p1
    · exact .inr (key p1 p2)

/-! ### where `==` disagrees with its description -/

/-- three roots with the tag r and one child: 1 below 0 with nothing below; 3 below 2 with a child of value 1; 6 below 5 with a child of value 2 -/
def eqCalls : List Call :=
  [.new (.other 0) .noValue [] 0#6, .append 0 (.val .none),
   .new (.other 0) .noValue [] 0#6, .append 2 (.val .none), .append 3 (.val (.int 1)),
   .new (.other 0) .noValue [] 0#6, .append 5 (.val .none), .append 6 (.val (.int 2)),
   .new (.other 0) .noValue [] 0#6, .new (.other 1) (.int 1) [] 0#6, .append 8 (.item 9),
   .new (.other 0) .noValue [] 0#6, .new (.other 2) (.int 1) [] 0#6, .append 10 (.item 11)]
def eqHeap : Heap := run ms0 Heap.empty eqCalls
theorem eqHeap_tidy : Tidy ms0 eqHeap := tidy_run _ .empty (by decide +kernel)

theorem eqTree (x : Id) : eqHeap.tree x = eqHeap.snap 12 x := rfl

/-- C32 (defect). `==` is not transitive: 2 == 0 and 0 == 5 but not 2 == 5; trees are compared only as far as the shorter one goes -/
theorem C32_not_transitive : eqHeap.eqItem 2 0 = true ∧ eqHeap.eqItem 0 5 = true ∧ eqHeap.eqItem 2 5 = false := by
  have e0 : eqHeap.tree 0 = .node 0 (.other 0) .noValue 0#6 none [.node 1 .noTag .none 0#6 none []] := rfl
  have e2 : eqHeap.tree 2 = .node 2 (.other 0) .noValue 0#6 none [.node 3 .noTag .none 0#6 none [.node 4 .noTag (.int 1) 0#6 none []]] := rfl
  have e5 : eqHeap.tree 5 = .node 5 (.other 0) .noValue 0#6 none [.node 6 .noTag .none 0#6 none [.node 7 .noTag (.int 2) 0#6 none []]] := rfl
  simp [Heap.eqItem, e0, e2, e5, Tree.pyEq, Tree.tag, Tree.kids, Tree.value, Tree.deep, Tree.preL, Tree.pre, valueEqual, pairEq, argsEq, Val.ty, Val.pyEq]

/-- C32 (defect). the tags below the root are not compared when the values are equal -/
theorem C32_descendant_tags_ignored : eqHeap.eqItem 8 10 = true ∧ eqHeap.tag 9 ≠ eqHeap.tag 11 ∧ 9 ∈ eqHeap.kids 8 ∧ 11 ∈ eqHeap.kids 10 := by
  have e8 : eqHeap.tree 8 = .node 8 (.other 0) .noValue 0#6 none [.node 9 (.other 1) (.int 1) 0#6 none []] := rfl
  have e10 : eqHeap.tree 10 = .node 10 (.other 0) .noValue 0#6 none [.node 11 (.other 2) (.int 1) 0#6 none []] := rfl
  refine ⟨?_, by decide +kernel, by decide +kernel, by decide +kernel⟩
  simp [Heap.eqItem, e8, e10, Tree.pyEq, Tree.tag, Tree.kids, Tree.value, Tree.deep, Tree.preL, Tree.pre, valueEqual, pairEq, argsEq, Val.ty, Val.pyEq]

/-- C32 (defect). equal items with different hashes, whatever the hash functions are, as long as they separate the two tags and tuples are hashed without collision -/
theorem C32_hash_mismatch (hTag : Tag → Nat) (hVal : Val → Nat) (comb : List Nat → Nat → Nat → Nat) (h1 : hTag (.other 1) ≠ hTag (.other 2))
    (h2 : ∀ a b c a' b' c', comb a b c = comb a' b' c' → a = a' ∧ b = b' ∧ c = c') :
    eqHeap.eqItem 8 10 = true ∧ (eqHeap.tree 8).hash hTag hVal comb ≠ (eqHeap.tree 10).hash hTag hVal comb := by
  refine ⟨C32_descendant_tags_ignored.1, ?_⟩
  have e8 : eqHeap.tree 8 = .node 8 (.other 0) .noValue 0#6 none [.node 9 (.other 1) (.int 1) 0#6 none []] := rfl
  have e10 : eqHeap.tree 10 = .node 10 (.other 0) .noValue 0#6 none [.node 11 (.other 2) (.int 1) 0#6 none []] := rfl
  rw [e8, e10]
  simp only [Tree.hash, Tree.hashL]
  intro e
  have := (h2 _ _ _ _ _ _ e).1
  simp only [List.cons.injEq, and_true] at this
  exact h1 (h2 _ _ _ _ _ _ this).2.1

/-- C32. the hash depends only on tags, values and order – in particular a copy has the hash of the original -/
theorem C32_hash_content (hTag : Tag → Nat) (hVal : Val → Nat) (comb : List Nat → Nat → Nat → Nat) {A B : Tree} (he : A.shape.strip = B.shape.strip) :
    A.hash hTag hVal comb = B.hash hTag hVal comb := by
  induction A using Tree.ind generalizing B with
  | H i t v f l ks ih =>
    obtain ⟨i', t', v', f', l', ks'⟩ := B
    simp only [Tree.shape, Shape.strip, Shape.node.injEq, shapeL_eq, stripL_eq, List.map_map] at he
    obtain ⟨rfl, rfl, _, _, h5⟩ := he
    have : Tree.hashL hTag hVal comb ks = Tree.hashL hTag hVal comb ks' := by
      induction ks generalizing ks' with
      | nil => cases ks' <;> simp_all
      | cons a ks ihk =>
        cases ks' with
        | nil => simp at h5
        | cons b ks' =>
          simp only [List.map_cons, List.cons.injEq, Function.comp_apply] at h5
          simp only [Tree.hashL, ih a (by simp) h5.1, ihk (fun k hk => ih k (by simp [hk])) _ h5.2]
    simp only [Tree.hash, this]

/-- C32, C31. the hash of a copy -/
theorem C32_C31_hash_copy (H : Reach ms h) {T : Tree} (R : Rep h T) (hT : T.id < h.next) (hTag : Tag → Nat) (hVal : Val → Nat) (comb : List Nat → Nat → Nat → Nat) :
    ∃ (h' : Heap) (T' : Tree), Delivers (fun n => iterCopy n h T.id) (.ok (h', T'.id)) ∧ Rep h' T' ∧ T'.hash hTag hVal comb = T.hash hTag hVal comb := by
  obtain ⟨h', T', d, r', s, _⟩ := C31_copy H R hT
  exact ⟨h', T', d, r', C32_hash_content _ _ _ (by rw [s, copyShape_strip])⟩

/-! ### non-vacuity -/

example : ∃ A B : Tree, Rep eqHeap A ∧ Rep eqHeap B ∧ A.id = 8 ∧ B.id = 10 ∧ ValuesOK A ∧ ValuesOK B ∧ SameTypes A B ∧ A.deep.length = B.deep.length ∧ eqHeap.eqItem A.id B.id = true := by
  refine ⟨eqHeap.tree 8, eqHeap.tree 10, tree_rep eqHeap_tidy.reach.core.wf eqHeap_tidy.reach.core.forest 8, tree_rep eqHeap_tidy.reach.core.wf eqHeap_tidy.reach.core.forest 10, rfl, rfl, ?_, ?_, ?_, rfl, C32_descendant_tags_ignored.1⟩
  · have e8 : eqHeap.tree 8 = .node 8 (.other 0) .noValue 0#6 none [.node 9 (.other 1) (.int 1) 0#6 none []] := rfl
    rw [e8]; simp [ValuesOK, Tree.pre, Tree.preL, Tree.value, Val.OK]
  · have e10 : eqHeap.tree 10 = .node 10 (.other 0) .noValue 0#6 none [.node 11 (.other 2) (.int 1) 0#6 none []] := rfl
    rw [e10]; simp [ValuesOK, Tree.pre, Tree.preL, Tree.value, Val.OK]
  · have e8 : eqHeap.tree 8 = .node 8 (.other 0) .noValue 0#6 none [.node 9 (.other 1) (.int 1) 0#6 none []] := rfl
    have e10 : eqHeap.tree 10 = .node 10 (.other 0) .noValue 0#6 none [.node 11 (.other 2) (.int 1) 0#6 none []] := rfl
    rw [e8, e10]; simp [SameTypes, Tree.pre, Tree.preL, Tree.value, Val.ty, Val.pyEq]
/-- a dict with proper keys; comparison does not depend on the order of the entries -/
example : (Val.dict [(.str "a", .int 1), (.str "b", .list [.none])]).OK := by simp [Val.OK, Val.OKD, Val.OKL, Val.pyEq]
example : Val.pyEq (Val.dict [(.str "a", .int 1), (.str "b", .none)]) (.dict [(.str "b", .none), (.str "a", .bool true)]) = true := by
  simp [Val.pyEq, Val.pySub, Val.pyHas]

end ITree
