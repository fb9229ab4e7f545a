import Verif.Proofs.ObjTree
import Verif.Props.Demo
/-
C56: what copies do with the value objects.
-/
namespace ITree

variable {ms : ModelSet} {h : Heap}

theorem objs_forall {s0 s : Store} {T T' : Tree} (F : List.Forall₂ (fun a b => SameItem a b ∧ DeepVal s0 s a.value b.value) T.pre T'.pre) :
    ∀ b ∈ T'.pre, ∃ a ∈ T.pre, DeepVal s0 s a.value b.value := by
  intro b hb
  have key : ∀ l l' : List Tree, List.Forall₂ (fun a b => SameItem a b ∧ DeepVal s0 s a.value b.value) l l' → b ∈ l' → ∃ a ∈ l, DeepVal s0 s a.value b.value := by
    intro l l' h
    induction h with
    | nil => simp
    | @cons x y l l' h1 _ ih =>
      intro hb
      rcases List.mem_cons.1 hb with rfl | hb
      · exact ⟨x, by simp, h1.2⟩
      · obtain ⟨a, ha, d⟩ := ih hb; exact ⟨a, by simp [ha], d⟩
  exact key _ _ F hb

/-- the value objects of the result are in the world of the copy -/
theorem deep_objs {s0 s : Store} {T T' : Tree} (hv : ∀ S ∈ T.pre, S.value.In s0) (F : List.Forall₂ (fun a b => SameItem a b ∧ DeepVal s0 s a.value b.value) T.pre T'.pre) :
    ∀ a ∈ T'.objs, a < s.next ∧ (s0.next ≤ a ∨ Imm s0 a) := by
  intro a ha
  obtain ⟨b, hb, e⟩ := List.mem_filterMap.1 ha
  obtain ⟨x, hx, d⟩ := objs_forall F b hb
  have eb : b.value = .obj a := by
    revert e; cases b.value <;> simp [Val.ref]
  rw [eb] at d
  unfold DeepVal at d
  split at d
  · obtain ⟨y, h1, h2, h3, _⟩ := d
    simp only [Val.obj.injEq] at h1
    subst h1; exact ⟨h2, h3⟩
  · rename_i v hn
    exact absurd d.symm (hn a)

/-- `c = t.deepcopy()`: if the call returns (recursion limit `n`), `c` is a new tree whose items agree with those of `t`, and each value looks the same, to any depth.
Whatever a program then does with the value objects of `c` – and everything it can reach from them, and all objects it makes – every value object that existed before looks as before;
and whatever a program does with the objects that existed before, the values of `c` look as before. -/
theorem C56_deepcopy (H : Reach ms h) {T : Tree} (R : Rep h T) (hT : T.id < h.next) {s : Store} (G : s.Good) (hv : ∀ S ∈ T.pre, S.value.In s) (n : Nat)
    {h' : Heap} {s' : Store} {c : Id} (e : Delivers (fun k => iterCopyV (.deep n) k h s T.id) (.ok (h', s', c))) :
    ∃ T' : Tree, T'.id = c ∧ Rep h' T' ∧ (∀ i ∈ T'.ids, h.next ≤ i ∧ i < h'.next) ∧ h'.par c = none ∧ Unchanged h h' ∧
      List.Forall₂ (fun a b => SameItem a b ∧ ∀ k, s'.lookVal k b.value = s.lookVal k a.value) T.pre T'.pre ∧
      (∀ a, a < s.next → s'.cell a = s.cell a) ∧
      (∀ as k a, a < s.next → (s'.acts T'.objs as).look k a = s.look k a) ∧
      (∀ K as k, (∀ a ∈ K, a < s.next) → ∀ b ∈ T'.pre, (s'.acts K as).lookVal k b.value = s'.lookVal k b.value) := by
  have C := H.core
  have D := iterCopyV_delivers C.wf R hT (.deep n) s
  have u := e.unique D
  cases er : T.revalue (.deep n) s with
  | error _ => rw [er] at u; cases u
  | ok r =>
    rw [er] at u
    simp only [Except.ok.injEq, Prod.mk.injEq] at u
    obtain ⟨rfl, rfl, rfl⟩ := u
    have S := build_spec C.wf r.2
    obtain ⟨T', eT, R', sh, fr⟩ := S.rep
    obtain ⟨g, F1, _⟩ := revalue_inv (P := Grown s) (Q := DeepVal s) (V := Val.In s) (deep_step G n) T s r (.refl s) hv er
    have F2 := shape_pre T' r.2 sh
    have F : List.Forall₂ (fun a b => SameItem a b ∧ DeepVal s r.1 a.value b.value) T.pre T'.pre := forall2_comp (fun a b c h1 h2 => by
      obtain ⟨a1, a2⟩ := h1
      obtain ⟨⟨b1, b2, b3, b4⟩, b5⟩ := h2
      refine ⟨⟨b1.trans a1.2.1, b2.trans a1.2.2.1, b3.trans (copyLink_same a1), b4.trans a1.2.2.2.2⟩, ?_⟩
      rw [b5]; exact a2) F1 F2
    have W := deep_objs hv F
    have F3 : List.Forall₂ (fun a b => SameItem a b ∧ ∀ k, r.1.lookVal k b.value = s.lookVal k a.value) T.pre T'.pre := F.imp (fun a b hab => by
      refine ⟨hab.1, fun k => ?_⟩
      have d := hab.2
      unfold DeepVal at d
      split at d
      · rename_i ea
        obtain ⟨y, h1, _, _, h4⟩ := d
        rw [h1, ea]; exact h4 k
      · rename_i hn; rw [d]
        cases hb : a.value <;> first | rfl | exact absurd hb (hn _))
    refine ⟨T', eT, R', fr, by simp [Heap.par, S.par], S.unchanged, F3, g.old, fun as k a ha => grown_look_old G g W as k ha, fun K as k hK b hb => ?_⟩
    · cases hb' : b.value with
      | obj x =>
        have := W x (List.mem_filterMap.2 ⟨b, hb, by rw [hb']; rfl⟩)
        exact grown_look_new G g hK as k this.1 this.2
      | _ => rfl

/-- `deepcopy()` returns whenever the recursion limit is high enough – also for values that contain themselves. -/
theorem C56_deepcopy_returns (H : Reach ms h) {T : Tree} (R : Rep h T) (hT : T.id < h.next) {s : Store} (G : s.Good) {rank : Nat → Nat} (hr : s.Ranked rank)
    (hv : ∀ S ∈ T.pre, S.value.In s) : ∃ N, ∀ n, N ≤ n → ∃ r, Delivers (fun k => iterCopyV (.deep n) k h s T.id) (.ok r) := by
  obtain ⟨N, r, e⟩ := revalue_total G hr T s (.refl s) hv
  refine ⟨N, fun n hn => ?_⟩
  have D := iterCopyV_delivers H.core.wf R hT (.deep n) s
  rw [revalue_mono hn T s r e] at D
  exact ⟨_, D⟩

/-- `c = t.copy()` always returns.  Values that are lists, dicts or value models are new objects, all different, with the same elements (not copied); every other value is the
same object as in `t`. -/
theorem C56_copy (H : Reach ms h) {T : Tree} (R : Rep h T) (hT : T.id < h.next) {s : Store} (hv : ∀ S ∈ T.pre, S.value.In s) :
    ∃ (h' : Heap) (s' : Store) (T' : Tree), Delivers (fun k => iterCopyV .copy k h s T.id) (.ok (h', s', T'.id)) ∧ Rep h' T' ∧ (∀ i ∈ T'.ids, h.next ≤ i ∧ i < h'.next) ∧
      h'.par T'.id = none ∧ Unchanged h h' ∧
      List.Forall₂ (fun a b => SameItem a b ∧ match a.value with
        | .obj x => if (s.cell x).kind.hashable = true then b.value = .obj x else ∃ y, b.value = .obj y ∧ s.next ≤ y ∧ y < s'.next ∧ s'.cell y = s.cell x
        | v => b.value = v) T.pre T'.pre ∧
      (T'.objs.filter (s.next ≤ ·)).Nodup ∧ (∀ a, a < s.next → s'.cell a = s.cell a) := by
  have C := H.core
  have D := iterCopyV_delivers C.wf R hT .copy s
  obtain ⟨r, er, k⟩ := revalue_ok (m := .copy) (P := Kept s) (V := Val.In s) (fun s1 v g hv => by
    have : ∃ r, copyValue .copy s1 v = .ok r := by
      by_cases ho : ∃ a, v = .obj a
      · obtain ⟨a, rfl⟩ := ho
        simp only [copyValue]
        split
        · exact ⟨_, rfl⟩
        · exact ⟨_, rfl⟩
      · exact ⟨_, copyValue_const fun a h => ho ⟨a, h⟩⟩
    obtain ⟨r, e⟩ := this
    exact ⟨r, e, (copy_step s1 v r g hv e).1⟩) T s ⟨Nat.le_refl _, fun _ _ => rfl⟩ hv
  rw [er] at D
  have S := build_spec C.wf r.2
  obtain ⟨T', eT, R', sh, fr⟩ := S.rep
  obtain ⟨_, F1, _⟩ := revalue_inv (P := Kept s) (Q := CopyVal s) (V := Val.In s) copy_step T s r ⟨Nat.le_refl _, fun _ _ => rfl⟩ hv er
  have F2 := shape_pre T' r.2 sh
  refine ⟨(build h r.2).1, r.1, T', by rw [eT]; exact D, R', fr, by simp [eT, Heap.par, S.par], S.unchanged, ?_, ?_, k.old⟩
  · refine forall2_comp (fun a b c h1 h2 => ?_) F1 F2
    obtain ⟨a1, a2⟩ := h1
    obtain ⟨⟨b1, b2, b3, b4⟩, b5⟩ := h2
    refine ⟨⟨b1.trans a1.2.1, b2.trans a1.2.2.1, b3.trans (copyLink_same a1), b4.trans a1.2.2.2.2⟩, ?_⟩
    rw [b5]; exact a2
  · have eo : T'.objs = r.2.objs := by
      have key : ∀ l l' : List Tree, List.Forall₂ (fun a b => SameItem a b ∧ b.value = a.value) l l' → (l'.filterMap fun i => i.value.ref) = l.filterMap fun i => i.value.ref := by
        intro l l' h
        induction h with
        | nil => rfl
        | cons h1 _ ih => simp only [List.filterMap_cons, h1.2, ih]
      exact key _ _ F2
    rw [eo]
    exact (copy_fresh T s r ⟨Nat.le_refl _, fun _ _ => rfl⟩ hv er).1.imp fun h => Nat.ne_of_lt h

/-- in consequence: changing a list, dict or value model that is a value of the copy `c = t.copy()` in place changes no value object that existed before, seen to any depth; and changing
an object that existed before never changes which elements the list, dict or model in the copy has -/
theorem C56_copy_top_level {s s' : Store} (hc : s.Closed) (old : ∀ a, a < s.next → s'.cell a = s.cell a) {y : Nat} (hy : s.next ≤ y) (l : List Nat) :
    (∀ k a, a < s.next → (s'.put y l).look k a = s.look k a) ∧ (∀ x, x < s.next → (s'.put x l).cell y = s'.cell y) := by
  refine ⟨fun k a ha => look_congr (fun a => a < s.next) (fun a ha => ⟨?_, hc a ha⟩) k a ha, fun x hx => ?_⟩
  · simp only [Store.put, if_neg (show a ≠ y by omega)]; exact old a ha
  · simp only [Store.put, if_neg (show y ≠ x by omega)]

/-- `c = t.copy_keep_value()`: always returns; each item of `c` has the very same value object. -/
theorem C56_keep (H : Reach ms h) {T : Tree} (R : Rep h T) (hT : T.id < h.next) (s : Store) :
    ∃ (h' : Heap) (T' : Tree), Delivers (fun k => iterCopyV .keep k h s T.id) (.ok (h', s, T'.id)) ∧ Rep h' T' ∧ (∀ i ∈ T'.ids, h.next ≤ i ∧ i < h'.next) ∧
      h'.par T'.id = none ∧ Unchanged h h' ∧ List.Forall₂ (fun a b => SameItem a b ∧ b.value = a.value) T.pre T'.pre := by
  have C := H.core
  have D := iterCopyV_delivers C.wf R hT .keep s
  have ev : ∀ v, copyValue .keep s v = .ok (s, v) := fun v => by cases v <;> rfl
  obtain ⟨r, er, k⟩ := revalue_ok (m := .keep) (P := (· = s)) (V := fun _ => True) (fun s1 v g _ => ⟨(s, v), by rw [g]; exact ev v, rfl⟩) T s rfl fun _ _ => trivial
  rw [er] at D
  have S := build_spec C.wf r.2
  obtain ⟨T', eT, R', sh, fr⟩ := S.rep
  obtain ⟨_, F1, _⟩ := revalue_inv (m := .keep) (P := (· = s)) (Q := fun _ v v' => v' = v) (V := fun _ => True) (fun s1 v r g _ e => by
    rw [g, ev v] at e; simp only [Except.ok.injEq] at e; subst e; exact ⟨rfl, rfl, fun _ _ => id⟩) T s r rfl (fun _ _ => trivial) er
  have F2 := shape_pre T' r.2 sh
  refine ⟨(build h r.2).1, T', by rw [eT]; simp only [k] at D; exact D, R', fr, by simp [eT, Heap.par, S.par], S.unchanged, ?_⟩
  refine forall2_comp (fun a b c h1 h2 => ?_) F1 F2
  obtain ⟨a1, a2⟩ := h1
  obtain ⟨⟨b1, b2, b3, b4⟩, b5⟩ := h2
  exact ⟨⟨b1.trans a1.2.1, b2.trans a1.2.2.1, b3.trans (copyLink_same a1), b4.trans a1.2.2.2.2⟩, by rw [b5]; exact a2⟩

/-! ### examples -/

/-- objects: 0 a constant, 1 a list `[0]`, 2 a tuple `(1,)`, 3 a list that contains itself and the tuple, 4 an instance with attribute 0 -/
def demoStore : Store where
  cell := fun
    | 1 => ⟨.list, .none, [0]⟩
    | 2 => ⟨.tuple, .none, [1]⟩
    | 3 => ⟨.list, .none, [3, 2]⟩
    | 4 => ⟨.inst, .none, [0]⟩
    | _ => ⟨.atom, .int 7, []⟩
  next := 5

theorem demoStore_good : demoStore.Good := by
  refine ⟨fun a ha => ?_, fun a ha => ?_⟩
  · match a, ha with
    | 0, _ => simp [demoStore]
    | 1, _ => simp [demoStore]
    | 2, _ => simp [demoStore]
    | 3, _ => simp [demoStore]
    | 4, _ => simp [demoStore]
    | n + 5, h => exact absurd h (by show ¬ n + 5 < 5; omega)
  · match a, ha with
    | 0, _ => rfl
    | 1, h => cases h
    | 2, h => cases h
    | 3, h => cases h
    | 4, h => cases h
    | n + 5, _ => rfl

theorem demoStore_ranked : demoStore.Ranked id := by
  intro a ha hk p hp hp2
  match a, ha with
  | 0, _ => cases hk
  | 1, _ => cases hk
  | 2, _ => simp [demoStore] at hp; subst hp; cases hp2
  | 3, _ => cases hk
  | 4, _ => cases hk
  | n + 5, h => exact absurd h (by show ¬ n + 5 < 5; omega)

/-- an item with two children; the values are the self-containing list, the list and the instance -/
def demoV : Heap := run ms0 Heap.empty [.new (.str "r") (.obj 3) [] 0#6, .new (.str "a") (.obj 1) [] 0#6, .new (.str "b") (.obj 4) [] 0#6, .append 0 (.item 1), .append 0 (.item 2)]

example : (match iterCopyV (.deep 20) 20 demoV demoStore 0 with | some (.ok r) => ((r.1.tree r.2.2).objs, (r.2.1.cell 5).ptrs, (r.2.1.cell 7).ptrs) | _ => ([], [], [])) =
    ([5, 8, 9], [5, 7], [6]) := by decide +kernel
example : (match iterCopyV .copy 20 demoV demoStore 0 with | some (.ok r) => ((r.1.tree r.2.2).objs, (r.2.1.cell 5).ptrs, (r.2.1.cell 6).ptrs) | _ => ([], [], [])) =
    ([5, 6, 4], [3, 2], [0]) := by decide +kernel

theorem demoV_tidy : Tidy ms0 demoV := tidy_run _ .empty (by decide)

/-- the theorems apply: `deepcopy` of this tree returns although a value contains itself, and the copy is isolated -/
example : ∃ n h' s' c, Delivers (fun k => iterCopyV (.deep n) k demoV demoStore 0) (.ok (h', s', c)) ∧ ∃ T' : Tree, T'.id = c ∧ Rep h' T' ∧
    ∀ as k a, a < 5 → (s'.acts T'.objs as).look k a = demoStore.look k a := by
  have C := demoV_tidy.reach.core
  have R := rep_of_tree C.wf C.forest 0
  have hv : ∀ S ∈ (demoV.tree 0).pre, S.value.In demoStore := by
    have e : (demoV.tree 0).pre.map Tree.value = [.obj 3, .obj 1, .obj 4] := by rfl
    intro S hS
    have := List.mem_map_of_mem (f := Tree.value) hS
    rw [e] at this
    simp only [List.mem_cons, List.not_mem_nil, or_false] at this
    rcases this with h | h | h <;> rw [h] <;> show _ < 5 <;> decide
  have hlt : (demoV.tree 0).id < demoV.next := by rw [R.2]; decide
  obtain ⟨N, hN⟩ := C56_deepcopy_returns demoV_tidy.reach R.1 hlt demoStore_good demoStore_ranked hv
  obtain ⟨⟨h', s', c⟩, e⟩ := hN N (Nat.le_refl _)
  obtain ⟨T', a, b, _, _, _, _, _, iso, _⟩ := C56_deepcopy demoV_tidy.reach R.1 hlt demoStore_good hv N e
  rw [R.2] at e
  exact ⟨N, h', s', c, e, T', a, b, iso⟩

/-- although `copy()` is documented to copy the value object, instances of user classes are shared: an assignment to an attribute of the value of the copy changes the value of the
original -/
theorem C56_copy_shares_instances : ∃ (h' : Heap) (s' : Store) (c : Id), iterCopyV .copy 20 demoV demoStore 2 = some (.ok (h', s', c)) ∧
    (demoV.node 2).value = .obj 4 ∧ (h'.node c).value = .obj 4 ∧
    (s'.cell 4).ptrs = [0] ∧ ((s'.acts [4] [.new .atom (.int 9) [], .write 4 [5]]).cell 4).ptrs = [5] :=
  ⟨_, _, _, rfl, rfl, rfl, rfl, rfl⟩

/-- the elements of a copied list are not copied (as documented): object 3 is an element of the copy of object 3, and the tuple 2 with its list 1 too -/
theorem C56_copy_shares_elements : ∃ (h' : Heap) (s' : Store) (c : Id), iterCopyV .copy 20 demoV demoStore 0 = some (.ok (h', s', c)) ∧
    (h'.node c).value = .obj 5 ∧ (s'.cell 5).ptrs = (demoStore.cell 3).ptrs ∧ (s'.cell 5).ptrs = [3, 2] :=
  ⟨_, _, _, rfl, rfl, rfl, rfl⟩

end ITree
