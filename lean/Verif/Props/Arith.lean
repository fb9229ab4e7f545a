import Verif.Proofs.Init
import Verif.Proofs.Deep
import Verif.Props.Demo
/-
C50: the constructor with a subtree; C47: `+` and `*`.
-/
namespace ITree

variable {ms : ModelSet} {h : Heap}

/-- `iTree(tag, value, subtree, flags=f)` in every reachable state, for every list of arguments: it never fails; the new item has the given tag, value and flags and no parent; its children
correspond one to one, in order, to the arguments: a plain value becomes a new leaf without tag, a parentless item is taken over itself, an item that has a parent (or was given before) is
copied (`MadeAt`); the deep flags are pushed into all levels of the children.  Of the items existing before nothing changes except: the parentless arguments get the new item as parent and the
items of their trees get the deep flags. -/
theorem C50_constructor (H : Reach ms h) (t : Tag) (v : Val) (sub : List Arg) (f : Flags) (ha : ∀ i, Arg.item i ∈ sub → i < h.next) (_hv : ∀ a ∈ sub, a.isPlain = true) :
    ∃ (h' : Heap) (Ts : List Tree), newItem h t v sub f = (h', .ok h.next) ∧ (step ms h (.new t v sub f)).1 = h' ∧ Rep h' (.node h.next t v f none Ts) ∧ h'.par h.next = none ∧ h.next < h'.next ∧
      Ts.length = sub.length ∧ (∀ (k : Nat) a T, sub[k]? = some a → Ts[k]? = some T → MadeAt h (f &&& Flags.deepMask) (sub.take k) a T) ∧
      (∀ i, i < h.next → h'.tag i = h.tag i ∧ (h'.node i).value = (h.node i).value ∧ (h'.node i).link = (h.node i).link ∧ h'.kids i = h.kids i) ∧
      (∀ i, i < h.next → h'.flags i = h.flags i ∨ (h'.flags i = h.flags i ||| (f &&& Flags.deepMask) ∧ ∃ j, Arg.item j ∈ sub ∧ h.par j = none ∧ Below h j i)) ∧
      (∀ i, i < h.next → Arg.item i ∉ sub → h'.par i = h.par i) ∧
      (∀ i, Arg.item i ∈ sub → h'.par i = some ((h.par i).getD h.next)) := by
  have C := H.core
  have main := newFrom_spec C t v sub f ha
  obtain ⟨h', Ts, e, C', R, p, l, m, nx, F⟩ := main
  have fin : ∀ h'' : Heap, FlagRel h h'' h.next (f &&& Flags.deepMask) sub →
      (∀ i, i < h.next → h''.tag i = h.tag i ∧ (h''.node i).value = (h.node i).value ∧ (h''.node i).link = (h.node i).link ∧ h''.kids i = h.kids i) ∧
      (∀ i, i < h.next → h''.flags i = h.flags i ∨ (h''.flags i = h.flags i ||| (f &&& Flags.deepMask) ∧ ∃ j, Arg.item j ∈ sub ∧ h.par j = none ∧ Below h j i)) ∧
      (∀ i, i < h.next → Arg.item i ∉ sub → h''.par i = h.par i) ∧
      (∀ i, Arg.item i ∈ sub → h''.par i = some ((h.par i).getD h.next)) := by
    intro h'' F
    refine ⟨fun i hi => ?_, fun i hi => ?_, fun i hi hn => ?_, fun i hi => ?_⟩
    · obtain ⟨a, b, c⟩ := F.data i hi
      exact ⟨a, b, c, F.kids i hi (by omega)⟩
    · rcases F.flags i hi with e | ⟨_, e⟩
      · exact .inl e
      · exact .inr e
    · rw [F.par i hi, if_neg]; exact fun a => hn a.2
    · rw [F.par i (ha i hi)]
      cases hp : h.par i with
      | none => rw [if_pos ⟨rfl, hi⟩]; rfl
      | some q => rw [if_neg (by simp)]; rfl
  cases sub with
  | nil =>
    refine ⟨(h.alloc { tag := t, value := v, flags := f }).1, [], rfl, rfl, ?_, ?_, by simp [Heap.alloc], rfl, by simp, ?_⟩
    · simp [Rep, RepL, Heap.alloc, Heap.tag, Heap.flags, Heap.kids]
    · simp [Heap.par, Heap.alloc]
    · refine fin _ ⟨by simp [Heap.alloc], fun i hi => ?_, fun i hi _ => ?_, fun i hi => .inl ?_, fun i hi => ?_⟩ <;>
        (have hne : i ≠ h.next := by omega) <;> simp [Heap.alloc, Heap.tag, Heap.kids, Heap.flags, Heap.par, hne]
  | cons a as =>
    exact ⟨h', Ts, by rw [newItem_eq_newFrom, e], by simp only [step, newItem_eq_newFrom, e]; rfl, R, p, nx, l, m, fin h' F⟩

/-- C50. `iTree(tag, value, subtree, link, flags)` with a link and without the flag LOAD_LINKS, in every reachable state and for every list of arguments: it never fails; the new item has the given tag and value, the
given flags with LINK_ROOT added, the given link, not loaded, and no parent; its children correspond to the arguments exactly as without link; the items existing before change exactly as without link. -/
theorem C50_link (H : Reach ms h) (t : Tag) (v : Val) (sub : List Arg) (f : Flags) (file : Option String) (path : List Tag) (ha : ∀ i, Arg.item i ∈ sub → i < h.next)
    (hv : ∀ a ∈ sub, a.isPlain = true) (_hf : f.has Flags.loadLinks = false) :
    ∃ (h' : Heap) (Ts : List Tree), newLink h t v sub f file path = (h', .ok h.next) ∧ (step ms h (.newLink t v sub f file path)).1 = h' ∧
      Rep h' (.node h.next t v (f ||| Flags.linkRoot) (some ⟨file, path, false, [], [], none, none⟩) Ts) ∧ h'.par h.next = none ∧ h.next < h'.next ∧
      Ts.length = sub.length ∧ (∀ (k : Nat) a T, sub[k]? = some a → Ts[k]? = some T → MadeAt h (f &&& Flags.deepMask) (sub.take k) a T) ∧
      (∀ i, i < h.next → h'.tag i = h.tag i ∧ (h'.node i).value = (h.node i).value ∧ (h'.node i).link = (h.node i).link ∧ h'.kids i = h.kids i) ∧
      (∀ i, i < h.next → h'.flags i = h.flags i ∨ (h'.flags i = h.flags i ||| (f &&& Flags.deepMask) ∧ ∃ j, Arg.item j ∈ sub ∧ h.par j = none ∧ Below h j i)) ∧
      (∀ i, i < h.next → Arg.item i ∉ sub → h'.par i = h.par i) ∧
      (∀ i, Arg.item i ∈ sub → h'.par i = some ((h.par i).getD h.next)) := by
  obtain ⟨h1, Ts, e, e1, R, p, nx, l, m, o1, o2, o3, o4⟩ := C50_constructor (ms := ms) H t v sub f ha hv
  have H1 : Reach ms h1 := e1 ▸ H.step (.new t v sub f) ⟨ha, hv⟩
  have nd := Rep.ids_nodup H1.core.wf H1.core.forest R
  have hnode : ∀ i, i ≠ h.next → (newLink h t v sub f file path).1.node i = h1.node i := fun i hi => by simp only [newLink, e, node_modify, if_neg hi]
  have hroot : (newLink h t v sub f file path).1.node h.next = { h1.node h.next with flags := (h1.node h.next).flags ||| Flags.linkRoot, link := some { file := file, path := path } } := by
    simp only [newLink, e, node_modify, if_true]
  have hnx : (newLink h t v sub f file path).1.next = h1.next := by simp only [newLink, e, Heap.modify]
  have r2 : (newLink h t v sub f file path).2 = .ok h.next := by simp only [newLink, e]
  have hlt : ∀ i, i < h.next → i ≠ h.next := fun i hi => by omega
  simp only [Rep] at R
  refine ⟨_, Ts, Prod.ext rfl r2, rfl, ?_, ?_, by rw [hnx]; exact nx, l, m, fun i hi => ?_, fun i hi => ?_, fun i hi hn => ?_, fun i hi => ?_⟩
  · simp only [Rep, Heap.tag, Heap.flags, Heap.kids, hroot]
    refine ⟨R.1, R.2.1, ?_, trivial, R.2.2.2.2.1, (repL_iff Ts).2 fun T hT => ?_⟩
    · have := R.2.2.1; simp only [Heap.flags] at this; rw [this]
    · refine ((repL_iff Ts).1 R.2.2.2.2.2 T hT).congr fun i hi => ?_
      have hne : i ≠ h.next := by
        rintro rfl
        simp only [Tree.ids, Tree.pre, List.map_cons, List.nodup_cons] at nd
        refine nd.1 ?_
        obtain ⟨S, hS, e⟩ := List.mem_map.1 hi
        exact List.mem_map.2 ⟨S, by rw [preL_eq]; exact List.mem_flatMap.2 ⟨T, hT, hS⟩, e⟩
      simp only [Heap.tag, Heap.flags, Heap.kids, hnode i hne, and_self]
  · simp only [Heap.par, hroot] at p ⊢; exact p
  · have := o1 i hi
    simp only [Heap.tag, Heap.kids, hnode i (hlt i hi)] at this ⊢; exact this
  · have := o2 i hi
    simp only [Heap.flags, hnode i (hlt i hi)] at this ⊢; exact this
  · have := o3 i hi hn
    simp only [Heap.par, hnode i (hlt i hi)] at this ⊢; exact this
  · have := o4 i hi
    simp only [Heap.par, hnode i (hlt i (ha i hi))] at this ⊢; exact this

/-- the shape of the copy of the tree below `x`, with flags `f` added everywhere -/
def copiedShape (h : Heap) (f : Flags) (x : Id) : Shape := ((h.tree x).shape.copy).or f

/-- when the arguments of a new item are parentless trees of new items, nothing old changes -/
theorem arith_unchanged {h h1 h' : Heap} {f : Flags} {sub : List Arg} (U : Unchanged h h1) (F : FlagRel h1 h' h1.next f sub)
    (hs : ∀ j, Arg.item j ∈ sub → ∃ T, T.id = j ∧ Rep h1 T ∧ ∀ i ∈ T.ids, h.next ≤ i) : Unchanged h h' := by
  have lt : ∀ i, i < h.next → i < h1.next := fun i hi => Nat.lt_of_lt_of_le hi U.next
  refine ⟨Nat.le_trans U.next F.next, fun i hi => (F.data i (lt i hi)).1.trans (U.tag i hi), fun i hi => (F.data i (lt i hi)).2.1.trans (U.value i hi), fun i hi => ?_,
    fun i hi => (F.data i (lt i hi)).2.2.trans (U.link i hi), fun i hi _ => (F.kids i (lt i hi) (by have := lt i hi; omega)).trans (U.kids i hi id), fun i hi _ => ?_⟩
  · rcases F.flags i (lt i hi) with e | ⟨_, _, j, j1, _, j3⟩
    · exact e.trans (U.flags i hi)
    · obtain ⟨T, rfl, R, b⟩ := hs j j1
      have := b i ((below_iff_ids R i).1 j3); omega
  · rw [F.par i (lt i hi), if_neg, U.par i hi id]
    rintro ⟨_, q⟩
    obtain ⟨T, rfl, R, b⟩ := hs i q
    have := b T.id (by cases T; simp [Tree.id, Tree.ids_node]); omega

/-- `t + u`: a new parentless item with tag, value and flags of `t`; its children are copies of the children of `t` followed by copies of the children of `u`, in order, at every depth (the
protection flags of `t` are added at every level of the copies); all items of the result are new; nothing that existed before changes – in particular not the operands. -/
theorem C47_add (H : Reach ms h) {t u : Id} (ht : t < h.next) (hu : u < h.next) (hl : ¬ h.isLinkRoot t) :
    ∃ (h' : Heap) (T : Tree), addItems h t u = (h', .ok T.id) ∧ Rep h' T ∧
      T.shape = .node (h.tag t) (h.node t).value (h.flags t) none ((h.kids t ++ h.kids u).map (copiedShape h (h.flags t &&& Flags.deepMask))) ∧
      h'.par T.id = none ∧ (∀ i ∈ T.ids, h.next ≤ i) ∧ Unchanged h h' := by
  have C := H.core
  have hkl : ∀ x ∈ h.kids t ++ h.kids u, x < h.next := by
    intro x hx
    rcases List.mem_append.1 hx with hx | hx
    · exact C.wf.kids_lt t x hx
    · exact C.wf.kids_lt u x hx
  obtain ⟨Cs, c1, c2, c3, c4, c5, c6⟩ := copyAll_spec (h.kids t ++ h.kids u) C hkl
  simp only [addItems, if_neg hl]
  generalize (copyAll h (h.kids t ++ h.kids u)).1 = h1 at *
  rw [c1]
  obtain ⟨h', Ts, e, C', R, p, l, m, nx, F⟩ := newFrom_spec c2 (h.tag t) (h.node t).value ((Cs.map Tree.id).map Arg.item) (h.flags t) (by
    intro i hi
    simp only [List.mem_map, Arg.item.injEq] at hi
    obtain ⟨j, ⟨T, hT, rfl⟩, rfl⟩ := hi
    exact ((c6 T hT).2.2 T.id (by cases T; simp [Tree.id, Tree.ids_node])).2)
  simp only [List.length_map] at l
  have hm : ∀ (k : Nat) (hk : k < Ts.length), ∃ hc : k < Cs.length, (Ts[k]).ids = (Cs[k]).ids ∧ (Ts[k]).shape = (Cs[k]).shape.or (h.flags t &&& Flags.deepMask) := by
    intro k hk
    have hc : k < Cs.length := by omega
    refine ⟨hc, ?_⟩
    have hC := c6 Cs[k] (List.getElem_mem hc)
    have M := m k (.item Cs[k].id) Ts[k] (by simp [hc]) (by simp [hk])
    have hns : Arg.item Cs[k].id ∉ ((Cs.map Tree.id).map Arg.item).take k := by
      intro hmem
      rw [← List.map_take] at hmem
      obtain ⟨y, hy, e⟩ := List.mem_map.1 hmem
      have e : y = Cs[k].id := by simpa using e
      obtain ⟨j, hj, ej⟩ := List.mem_take_iff_getElem.1 hy
      have : (Cs.map Tree.id)[j]'(by omega) = (Cs.map Tree.id)[k]'(by simpa using hc) := by rw [ej, e]; simp
      have := (List.nodup_iff_injective_getElem.1 c5) (a₁ := ⟨j, by omega⟩) (a₂ := ⟨k, by simpa using hc⟩) this
      simp at this; omega
    simp only [MadeAt, hC.2.1, hns, not_false_eq_true, and_self, if_true] at M
    rw [hC.1.tree c2.wf] at M
    exact M
  refine ⟨h', .node h1.next (h.tag t) (h.node t).value (h.flags t) none Ts, e, R, ?_, p, ?_, ?_⟩
  · simp only [Tree.shape, shapeL_eq, Shape.node.injEq, true_and]
    have : (h.kids t ++ h.kids u).map (copiedShape h (h.flags t &&& Flags.deepMask)) = (Cs.map Tree.shape).map (Shape.or (h.flags t &&& Flags.deepMask)) := by
      rw [c4, List.map_map]; rfl
    rw [this, List.map_map]
    apply List.ext_getElem
    · simp [l]
    · intro k hk _
      simp only [List.length_map] at hk
      obtain ⟨hc, _, q⟩ := hm k hk
      simp [q]
  · intro i hi
    rw [Tree.ids_node, idsL_eq] at hi
    rcases List.mem_cons.1 hi with rfl | hi
    · exact c3.next
    · obtain ⟨T, hT, hiT⟩ := List.mem_flatMap.1 hi
      obtain ⟨k, hk, rfl⟩ := List.getElem_of_mem hT
      obtain ⟨hc, q, _⟩ := hm k hk
      rw [q] at hiT
      exact ((c6 _ (List.getElem_mem hc)).2.2 i hiT).1
  · refine arith_unchanged c3 F fun j hj => ?_
    simp only [List.mem_map, Arg.item.injEq] at hj
    obtain ⟨_, ⟨T, hT, rfl⟩, rfl⟩ := hj
    exact ⟨T, rfl, (c6 T hT).1, fun i hi => ((c6 T hT).2.2 i hi).1⟩

/-- `t + u` for a link root `t` is refused with a TypeError and changes nothing -/
theorem C47_add_linked {t u : Id} (hl : h.isLinkRoot t) : addItems h t u = (h, .error .type) := by
  simp [addItems, hl]

/-- common part of `t * n` and `n * t` -/
theorem mul_spec (H : Reach ms h) {t : Id} (tg : Tag) (v : Val) (f : Flags) (n : Nat) :
    ∃ (h' : Heap) (T : Tree), newFrom (copyItem h t).1 tg v (List.replicate n (Arg.item (copyItem h t).2)) f = (h', .ok T.id) ∧ Rep h' T ∧
      T.shape = .node tg v f none (List.replicate n (copiedShape h (f &&& Flags.deepMask) t)) ∧
      h'.par T.id = none ∧ (∀ i ∈ T.ids, h.next ≤ i) ∧ Unchanged h h' := by
  have C := H.core
  have S := copyItem_spec C.wf t
  have C1 : Core (copyItem h t).1 := ⟨S.wf, S.forest C.forest, S.nocov C.nocov⟩
  obtain ⟨X, x1, x2, x3, x4⟩ := S.rep
  have hlt := S.lt
  have hpar := S.par
  have U := S.unchanged
  generalize (copyItem h t).1 = h1 at *
  generalize (copyItem h t).2 = c at *
  have hmem : ∀ i, Arg.item i ∈ List.replicate n (Arg.item c) → i = c := fun i hi => by simpa using (List.mem_replicate.1 hi).2
  obtain ⟨h', Ts, e, C', R, p, l, m, nx, F⟩ := newFrom_spec C1 tg v (List.replicate n (Arg.item c)) f (fun i hi => by rw [hmem i hi]; exact hlt)
  have htree : h1.tree c = X := by rw [← x1]; exact x2.tree C1.wf
  simp only [List.length_replicate] at l
  have hm : ∀ (k : Nat) (hk : k < Ts.length), (∀ i ∈ (Ts[k]).ids, h.next ≤ i) ∧ (Ts[k]).shape = copiedShape h (f &&& Flags.deepMask) t := by
    intro k hk
    have M := m k (.item c) Ts[k] (by rw [List.getElem?_replicate, if_pos (by omega)]) (by simp [hk])
    simp only [MadeAt] at M
    rw [htree] at M
    have hX : X.shape.copy.or (f &&& Flags.deepMask) = copiedShape h (f &&& Flags.deepMask) t := by rw [x3, copyShape_eq, Shape.copy_copy]; rfl
    have hX' : X.shape.or (f &&& Flags.deepMask) = copiedShape h (f &&& Flags.deepMask) t := by rw [x3, copyShape_eq]; rfl
    split at M
    · exact ⟨fun i hi => (x4 i (M.1 ▸ hi)).1, M.2.trans hX'⟩
    · exact ⟨fun i hi => Nat.le_trans U.next (M.1 i hi), M.2.trans hX⟩
  refine ⟨h', .node h1.next tg v f none Ts, e, R, ?_, p, ?_, ?_⟩
  · simp only [Tree.shape, shapeL_eq, Shape.node.injEq, true_and]
    apply List.ext_getElem
    · simp [l]
    · intro k hk _
      simp only [List.length_map] at hk
      simp [(hm k hk).2]
  · intro i hi
    rw [Tree.ids_node, idsL_eq] at hi
    rcases List.mem_cons.1 hi with rfl | hi
    · exact U.next
    · obtain ⟨T, hT, hiT⟩ := List.mem_flatMap.1 hi
      obtain ⟨k, hk, rfl⟩ := List.getElem_of_mem hT
      exact (hm k hk).1 i hiT
  · refine arith_unchanged U F fun j hj => ?_
    rw [hmem j hj]
    exact ⟨X, x1, x2, fun i hi => (x4 i hi).1⟩

/-- `t * n`: a new parentless item with tag, value and flags of `t`, whose children are `n` copies of the tree of `t` (none for `n ≤ 0`); nothing that existed before changes -/
theorem C47_mul (H : Reach ms h) (t : Id) (n : Int) :
    ∃ (h' : Heap) (T : Tree), mulItem h t n = (h', .ok T.id) ∧ Rep h' T ∧
      T.shape = .node (h.tag t) (h.node t).value (h.flags t) none (List.replicate n.toNat (copiedShape h (h.flags t &&& Flags.deepMask) t)) ∧
      h'.par T.id = none ∧ (∀ i ∈ T.ids, h.next ≤ i) ∧ Unchanged h h' := mul_spec H _ _ _ _

/-- `n * t`: the same with a root without tag, value and flags -/
theorem C47_rmul (H : Reach ms h) (t : Id) (n : Int) :
    ∃ (h' : Heap) (T : Tree), rmulItem h n t = (h', .ok T.id) ∧ Rep h' T ∧
      T.shape = .node .noTag .noValue 0#6 none (List.replicate n.toNat (h.tree t).shape.copy) ∧
      h'.par T.id = none ∧ (∀ i ∈ T.ids, h.next ≤ i) ∧ Unchanged h h' := by
  have := mul_spec H (t := t) .noTag .noValue 0#6 n.toNat
  simpa [rmulItem, copiedShape, Shape.or_zero] using this

/-! ### non-vacuity -/

example : demo.kids 0 = [1, 2, 3, 5] ∧ demo.kids 1 = [4] ∧ demo.par 0 = none ∧ demo.par 1 = some 0 := by decide +kernel
/-- a constructor call with a parentless item given twice, an item that has a parent and a plain value: the parentless item is used once and copied once -/
example : ((newItem demo (.str "new") .none [.item 0, .item 1, .item 0, .val .noValue] Flags.readOnlyTree).1.kids 7).length = 4 ∧
    (newItem demo (.str "new") .none [.item 0, .item 1, .item 0, .val .noValue] Flags.readOnlyTree).1.par 0 = some 7 ∧
    (newItem demo (.str "new") .none [.item 0, .item 1, .item 0, .val .noValue] Flags.readOnlyTree).1.par 1 = some 0 := by decide +kernel
example : ¬ demo.isLinkRoot 0 ∧ ((addItems demo 0 1).1.tree (match (addItems demo 0 1).2 with | .ok i => i | _ => 0)).kids.length = 5 := by decide +kernel
example : ((mulItem demo 0 3).1.tree (match (mulItem demo 0 3).2 with | .ok i => i | _ => 0)).kids.length = 3 := by decide +kernel

end ITree
