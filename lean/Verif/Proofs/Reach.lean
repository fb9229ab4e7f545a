import Verif.Proofs.Separate3
import Verif.Proofs.Init
/-
Histories: every reachable state is consistent, with the further calls of Model/More.
-/
namespace ITree

/-- nothing is marked: all conditions of `NI` on items hold -/
theorem sn_of {h h' : Heap} (H : ∀ S : NoStale h, NI (fun _ => False) False h h') : NoStale h → NoStale h' := fun S => (H S).sep

theorem step_lkeeps (ms : ModelSet) {h : Heap} (C : Core h) (c : Call) (ha : Allowed h c) (hc : c.leavesStrays = false) : LKeeps h (step ms h c).1 where
  core := (step_core C c ha).1
  le := (step_core C c ha).2.1
  nz := (step_core C c ha).2.2 hc
  sn := sn_of fun S => NI.step ms S c (by simp) (by rintro p k rfl; simp [Call.leavesStrays] at hc)

/-! ### loops -/

theorem forEach_lkeeps {f : Heap → Id → Res Unit} (H : ∀ h x, Core h → LKeeps h (f h x).1) : ∀ (l : List Id) {h : Heap}, Core h → LKeeps h (forEach f h l).1
  | [], h, C => .refl C
  | x :: xs, h, C => by
    have A := H h x C
    simp only [forEach]
    split
    · exact A
    · exact A.trans (forEach_lkeeps H xs A.core)

theorem forEach_core {f : Heap → Id → Res Unit} (H : ∀ h x, Core h → x < h.next → Core (f h x).1 ∧ h.next ≤ (f h x).1.next) : ∀ (l : List Id) {h : Heap}, Core h → (∀ x ∈ l, x < h.next) →
    Core (forEach f h l).1 ∧ h.next ≤ (forEach f h l).1.next
  | [], h, C, _ => ⟨C, Nat.le_refl _⟩
  | x :: xs, h, C, hl => by
    have A := H h x C (hl x (by simp))
    simp only [forEach]
    split
    · exact A
    · have B := forEach_core H xs A.1 fun y hy => Nat.lt_of_lt_of_le (hl y (by simp [hy])) A.2
      exact ⟨B.1, Nat.le_trans A.2 B.2⟩

theorem deepReverse_lkeeps (n : Nat) : ∀ (h : Heap) (x : Id), Core h → LKeeps h (deepReverse n h x).1 := by
  induction n with
  | zero => intro h x C; exact .refl C
  | succ n ih =>
    intro h x C
    simp only [deepReverse]
    split
    · exact .refl C
    · exact .refl C
    · split
      · exact .refl C
      · have A : LKeeps h (reverse h x).1 := step_lkeeps (fun _ v => some v) C (.reverse x) trivial rfl
        split
        · exact A
        · exact A.trans (forEach_lkeeps ih _ A.core)

theorem deepSort_core (key : Heap → Id → Int) (rev : Bool) (n : Nat) : ∀ (h : Heap) (x : Id), Core h → x < h.next → Core (deepSort key rev n h x).1 ∧ h.next ≤ (deepSort key rev n h x).1.next := by
  induction n with
  | zero => intro h x C _; exact ⟨C, Nat.le_refl _⟩
  | succ n ih =>
    intro h x C hx
    simp only [deepSort]
    split
    · exact ⟨C, Nat.le_refl _⟩
    · exact ⟨C, Nat.le_refl _⟩
    · have A := sort_core C hx (key h) rev
      split
      · exact A
      · have B := forEach_core ih ((sort h x (key h) rev).1.kids x) A.1 fun y hy => A.1.wf.kids_lt x y hy
        exact ⟨B.1, Nat.le_trans A.2 B.2⟩

theorem removeFromParent_lkeeps {h : Heap} (C : Core h) (x : Id) : LKeeps h (removeFromParent h x).1 := by
  unfold removeFromParent
  split
  · exact .refl C
  · exact step_lkeeps (fun _ v => some v) C (.remove _ x) trivial rfl

theorem removeElems_lkeeps : ∀ (es : List Elem) {h : Heap}, Core h → LKeeps h (removeElems h es).1
  | [], h, C => .refl C
  | .list _ :: _, h, C => .refl C
  | .item x :: es, h, C => by
    have A := removeFromParent_lkeeps C x
    simp only [removeElems]
    split
    · exact A
    · exact A.trans (removeElems_lkeeps es A.core)

theorem deepRemove_lkeeps {h : Heap} (C : Core h) (p : Id) (t : Target) (ts : List Target) : LKeeps h (deepRemove h p t ts).1 := by
  unfold deepRemove
  split
  · exact .refl C
  · simp only; split <;> exact removeFromParent_lkeeps C _
  · simp only; split <;> exact removeElems_lkeeps _ C

theorem unsetFlags_lkeeps {h : Heap} (C : Core h) (x : Id) (f : Flags) : LKeeps h (unsetFlagsOp h x f).1 :=
  ⟨(unsetFlagsOp_data _ _ _).keeps C, sn_of fun S => .unsetFlagsOp S id⟩
theorem setFlags1_lkeeps {h : Heap} (C : Core h) (x : Id) (f : Flags) : LKeeps h (setFlags1 h x f).1 :=
  ⟨(setFlags1_data _ _ _).keeps C, sn_of fun S => .setFlags1 S id⟩

/-! ### positions -/

theorem writePos_ceq (c : Cache) : ∀ (l : List Id) (h : Heap) (i : Nat), CEq h (writePos c h l i).1
  | [], h, _ => CEq.refl h
  | y :: ys, h, i => by
    simp only [writePos]
    split
    · exact CEq.refl h
    · split
      · exact CEq.refl h
      · rename_i r hr _
        exact (CEq.setC hr c i (by omega)).trans (writePos_ceq c ys _ (i + 1))

theorem writeFams_ceq : ∀ (F : Fams) (h : Heap), CEq h (writeFams h F).1
  | [], h => CEq.refl h
  | e :: F, h => by
    simp only [writeFams]
    split
    · exact writePos_ceq _ _ _ _
    · exact (writePos_ceq _ _ _ _).trans (writeFams_ceq F _)

theorem forceCache_ceq (h : Heap) (x : Id) (i f a : Bool) : CEq h (forceCache h x i f a).1 := by
  unfold forceCache
  split
  · exact CEq.refl h
  · rename_i r _
    have A : CEq h (if i then writePos .abs h (h.kids r.pid) 0 else (h, .ok ())).1 := by
      split
      · exact writePos_ceq _ _ _ _
      · exact CEq.refl h
    simp only
    split
    · exact A
    · split
      · split
        · exact A
        · split
          · exact A
          · exact A.trans (writePos_ceq _ _ _ _)
      · split
        · split
          · exact A
          · exact A.trans (writeFams_ceq _ _)
        · exact A

/-! ### removing several items, clearing the local items -/

theorem delByItem_lkeeps {h : Heap} (C : Core h) (p x : Id) : LKeeps h (delByItem h p x).1 := ⟨delByItem_keeps C p x, sn_of fun S => (NI.delByItem S id id).1⟩

theorem removeLoop_lkeeps (p : Id) : ∀ (l : List Id) {h : Heap}, Core h → LKeeps h (removeLoop h p l).1
  | [], h, C => .refl C
  | x :: xs, h, C => by
    have A := delByItem_lkeeps C p x
    simp only [removeLoop]
    split
    · exact A
    · exact A
    · exact A
    · exact A.trans (removeLoop_lkeeps p xs A.core)

theorem removeMany_lkeeps {h : Heap} (C : Core h) (p : Id) (l : List Id) : LKeeps h (removeMany h p l).1 := by
  unfold removeMany
  split
  · exact .refl C
  · exact removeLoop_lkeeps p _ C

theorem bumpTag_nonneg {t : Tag} {td td' : List (Tag × Int)} {k : Int} (H : ∀ e ∈ td, -1 ≤ e.2) (e : bumpTag t td = some (k, td')) : 0 ≤ k ∧ ∀ e ∈ td', -1 ≤ e.2 := by
  induction td generalizing td' with
  | nil => simp [bumpTag] at e
  | cons a r ih =>
    have h0 := H a (by simp)
    simp only [bumpTag] at e
    split at e
    · simp only [Option.some.injEq, Prod.mk.injEq] at e
      obtain ⟨rfl, rfl⟩ := e
      refine ⟨by omega, fun b hb => ?_⟩
      rcases List.mem_cons.1 hb with rfl | hb
      · show -1 ≤ a.2 + 1; omega
      · exact H b (by simp [hb])
    · cases hb : bumpTag t r with
      | none => rw [hb] at e; simp at e
      | some q =>
        rw [hb] at e
        simp only [Option.map_some, Option.some.injEq, Prod.mk.injEq] at e
        obtain ⟨rfl, rfl⟩ := e
        have := ih (fun b hb => H b (by simp [hb])) hb
        refine ⟨this.1, fun b hb => ?_⟩
        rcases List.mem_cons.1 hb with rfl | hb
        · exact h0
        · exact this.2 b hb

theorem clearLocalLoop_lkeeps (p : Id) : ∀ (n : Nat) {h : Heap} (i : Nat) (add : Bool) (td : List (Tag × Int)), Core h → (∀ e ∈ td, -1 ≤ e.2) → LKeeps h (clearLocalLoop p n h i add td).1
  | 0, h, _, _, _, C, _ => .refl C
  | n + 1, h, i, add, td, C, H => by
    simp only [clearLocalLoop]
    split
    · exact .refl C
    · rename_i x _
      split
      · exact .refl C
      · rename_i k td' hb
        obtain ⟨hk, H'⟩ := bumpTag_nonneg H hb
        split
        · exact .refl C
        · rename_i r hr
          split
          · exact .refl C
          · have A := (CEq.setC hr .fam k hk).lkeeps C
            split
            · exact A.trans (clearLocalLoop_lkeeps p n _ _ _ A.core H')
            · split
              · exact A.trans (clearLocalLoop_lkeeps p n _ _ _ A.core H')
              · have B := A.trans (delByItem_lkeeps A.core p x)
                split
                · exact B
                · exact B.trans (clearLocalLoop_lkeeps p n _ _ _ B.core H')

theorem clearLocalRoot_lkeeps {h : Heap} (C : Core h) (p : Id) (k : Bool) : LKeeps h (clearLocalRoot h p k).1 := by
  have A := clearLocalLoop_lkeeps p ((h.kids p).length + 1) 0 false ((h.kids p).map fun c => (h.tag c, -1)) C (by simp)
  unfold clearLocalRoot
  simp only
  split
  · exact A
  · split
    · exact A
    · refine A.trans ⟨(dataEq_val _ p .noValue).keeps A.core, sn_of fun S => .setVal S id⟩

/-! ### new items -/

theorem newFrom_lkeeps {h : Heap} (C : Core h) (t : Tag) (v : Val) (sub : List Arg) (f : Flags) (ha : ∀ i, Arg.item i ∈ sub → i < h.next) : LKeeps h (newFrom h t v sub f).1 := by
  have A : AllocRel h (h.alloc { tag := t, value := v, flags := f, fams := some [] }).1 h.next { tag := t, value := v, flags := f, fams := some [] } :=
    ⟨rfl, rfl, rfl, rfl, Or.inr rfl⟩
  have K := A.keeps C rfl
  refine ⟨?_, sn_of fun S => ?_⟩
  · unfold newFrom
    refine K.trans (initLoop_keeps sub 0 K.core ?_ ?_ ?_ ?_).1
    · show h.next < h.next + 1; omega
    · simp [Heap.alloc]
    · simp [Heap.alloc]
    · intro i hi
      have := ha i hi
      exact ⟨show i < h.next + 1 by omega, by show i ≠ h.next; omega⟩
  · have B := NI.alloc S (N := fun _ => False) (n := { tag := t, value := v, flags := f, fams := some [] }) ⟨by simp, by simp, (fun F e => by cases e; simp [FOut]), by simp, by simp⟩
    exact B.1.trans (NI.initLoop B.2 _ _ B.1.sep (fun _ _ _ _ => id))

theorem copyItem_lkeeps {h : Heap} (C : Core h) (x : Id) : LKeeps h (copyItem h x).1 := ⟨(copyItem_spec C.wf x).keeps C, sn_of fun S => (NI.copyItem S x).1⟩

theorem copyAll_lkeeps : ∀ (l : List Id) {h : Heap}, Core h → LKeeps h (copyAll h l).1 ∧ ∀ i ∈ (copyAll h l).2, i < (copyAll h l).1.next
  | [], h, C => ⟨.refl C, by simp [copyAll]⟩
  | x :: xs, h, C => by
    have A := copyItem_lkeeps C x
    have B := copyAll_lkeeps xs A.core
    refine ⟨A.trans B.1, fun i hi => ?_⟩
    simp only [copyAll, List.mem_cons] at hi ⊢
    rcases hi with rfl | hi
    · exact Nat.lt_of_lt_of_le (copyItem_spec C.wf x).lt B.1.le
    · exact B.2 i hi

theorem newItem_lkeeps {h : Heap} (C : Core h) (t : Tag) (v : Val) (sub : List Arg) (f : Flags) (ha : ∀ i, Arg.item i ∈ sub → i < h.next) : LKeeps h (newItem h t v sub f).1 :=
  ⟨newItem_keeps C t v sub f ha, sn_of fun S => .newItem S fun _ _ _ _ => id⟩

theorem newLink_lkeeps {h : Heap} (C : Core h) (t : Tag) (v : Val) (sub : List Arg) (f : Flags) (file : Option String) (path : List Tag) (ha : ∀ i, Arg.item i ∈ sub → i < h.next) :
    LKeeps h (newLink h t v sub f file path).1 :=
  ⟨newLink_keeps C t v sub f file path ha, sn_of fun S => .newLink S fun _ _ _ _ => id⟩

theorem newItem_fst (h : Heap) (t : Tag) (v : Val) (sub : List Arg) (f : Flags) : (newItem h t v sub f).2 = .ok h.next := by
  cases sub <;> rfl

theorem newItem_next {h : Heap} (C : Core h) (t : Tag) (v : Val) (sub : List Arg) (f : Flags) (ha : ∀ i, Arg.item i ∈ sub → i < h.next) : h.next < (newItem h t v sub f).1.next := by
  cases sub with
  | nil => exact Nat.lt_succ_self _
  | cons a as =>
    rw [newItem_eq_newFrom]
    obtain ⟨h', Ts, e, -, -, -, -, -, hn, -⟩ := newFrom_spec C t v (a :: as) f ha
    rw [e]; exact hn

mutual
theorem rebuild_lkeeps : ∀ (s : Shape) {h : Heap}, Core h → LKeeps h (rebuild h s).1 ∧ (rebuild h s).2 < (rebuild h s).1.next
  | .node t v f l ks, h, C => by
    have A := rebuildL_lkeeps ks C
    have ha : ∀ i, Arg.item i ∈ (rebuildL h ks).2.map Arg.item → i < (rebuildL h ks).1.next := fun i hi => by
      simp only [List.mem_map, Arg.item.injEq] at hi
      obtain ⟨_, hi, rfl⟩ := hi
      exact A.2 _ hi
    simp only [rebuild, heapBuilder]
    cases l with
    | none =>
      have B := newItem_lkeeps A.1.core t v _ f ha
      have e := newItem_fst (rebuildL h ks).1 t v ((rebuildL h ks).2.map Arg.item) f
      have n := newItem_next A.1.core t v _ f ha
      dsimp only
      generalize newItem (rebuildL h ks).1 t v ((rebuildL h ks).2.map Arg.item) f = r at B e n ⊢
      obtain ⟨h', o⟩ := r
      simp only at e; subst e
      exact ⟨A.1.trans B, n⟩
    | some lk =>
      have B := newLink_lkeeps A.1.core t v _ f lk.file lk.path ha
      have e : (newLink (rebuildL h ks).1 t v ((rebuildL h ks).2.map Arg.item) f lk.file lk.path).2 = .ok (rebuildL h ks).1.next := newItem_fst (rebuildL h ks).1 t v ((rebuildL h ks).2.map Arg.item) f
      have n : (rebuildL h ks).1.next < (newLink (rebuildL h ks).1 t v ((rebuildL h ks).2.map Arg.item) f lk.file lk.path).1.next := newItem_next A.1.core t v _ f ha
      dsimp only
      generalize newLink (rebuildL h ks).1 t v ((rebuildL h ks).2.map Arg.item) f lk.file lk.path = r at B e n ⊢
      obtain ⟨h', o⟩ := r
      simp only at e; subst e
      exact ⟨A.1.trans B, n⟩
theorem rebuildL_lkeeps : ∀ (l : List Shape) {h : Heap}, Core h → LKeeps h (rebuildL h l).1 ∧ ∀ i ∈ (rebuildL h l).2, i < (rebuildL h l).1.next
  | [], h, C => ⟨.refl C, by simp [rebuildL]⟩
  | k :: ks, h, C => by
    have A := rebuild_lkeeps k C
    have B := rebuildL_lkeeps ks A.1.core
    refine ⟨A.1.trans B.1, fun i hi => ?_⟩
    simp only [rebuildL, List.mem_cons] at hi ⊢
    rcases hi with rfl | hi
    · exact Nat.lt_of_lt_of_le A.2 B.1.le
    · exact B.2 i hi
end

theorem flagLoop_lkeeps {h : Heap} (C : Core h) (x : Id) (l : List Id) {f : Heap → Id → Res Unit} (H : ∀ h x, Core h → LKeeps h (f h x).1) :
    LKeeps h (if parentReadOnly h x then ((h, .error .permission) : Res Unit) else forEach f h l).1 := by
  split
  · exact .refl C
  · exact forEach_lkeeps H l C

theorem more_lkeeps {h : Heap} (C : Core h) (m : More) (ok : MoreOK h m) (hm : m.leavesStrays h = false) : LKeeps h (more h m) := by
  cases m with
  | deepReverse n x => exact deepReverse_lkeeps n h x C
  | deepSort key rev n x => simp [More.leavesStrays] at hm
  | deepRemove p t ts => exact deepRemove_lkeeps C p t ts
  | deepUnsetTreeReadOnly x f hier => exact flagLoop_lkeeps C x _ fun _ _ C => unsetFlags_lkeeps C _ _
  | deepUnsetValueReadOnly x f hier => exact flagLoop_lkeeps C x _ fun _ _ C => unsetFlags_lkeeps C _ _
  | deepSetValueReadOnly x f hier => exact flagLoop_lkeeps C x _ fun _ _ C => setFlags1_lkeeps C _ _
  | forceCache x i f a => exact (forceCache_ceq h x i f a).lkeeps C
  | removeMany p l => exact removeMany_lkeeps C p l
  | clearLocal p k =>
    simp only [More.leavesStrays, Bool.not_eq_false'] at hm
    simp only [more, clearLocal, hm, if_true]
    exact clearLocalRoot_lkeeps C p k
  | add t u =>
    simp only [more, addItems]
    split
    · exact .refl C
    · have A := copyAll_lkeeps (h.kids t ++ h.kids u) C
      exact A.1.trans (newFrom_lkeeps A.1.core _ _ _ _ (fun i hi => by simp only [List.mem_map, Arg.item.injEq] at hi; obtain ⟨_, hi, rfl⟩ := hi; exact A.2 _ hi))
  | mul t k =>
    have A := copyItem_lkeeps C t
    exact A.trans (newFrom_lkeeps A.core _ _ _ _ (fun i hi => by have := (List.mem_replicate.1 hi).2; cases this; exact (copyItem_spec C.wf t).lt))
  | mulTree t u =>
    simp only [more, mulTree]
    split
    · exact .refl C
    · have A := copyAll_lkeeps (h.kids t) C
      have B := copyAll_lkeeps (h.kids u) A.1.core
      refine (A.1.trans B.1).trans (newFrom_lkeeps B.1.core _ _ _ _ (fun i hi => ?_))
      simp only [List.mem_map, Arg.item.injEq, List.mem_flatMap, List.mem_cons, List.not_mem_nil, or_false] at hi
      obtain ⟨_, ⟨a, ha, b, hb, hi⟩, rfl⟩ := hi
      rcases hi with rfl | rfl
      · exact Nat.lt_of_lt_of_le (A.2 _ ha) B.1.le
      · exact B.2 _ hb
  | rmul k t =>
    have A := copyItem_lkeeps C t
    exact A.trans (newFrom_lkeeps A.core _ _ _ _ (fun i hi => by have := (List.mem_replicate.1 hi).2; cases this; exact (copyItem_spec C.wf t).lt))
  | build s => exact (rebuild_lkeeps s C).1

theorem more_core {h : Heap} (C : Core h) (m : More) (ok : MoreOK h m) : Core (more h m) ∧ h.next ≤ (more h m).next := by
  cases hm : m.leavesStrays h with
  | false => have := more_lkeeps C m ok hm; exact ⟨this.core, this.le⟩
  | true =>
    cases m with
    | deepSort key rev n x => exact deepSort_core key rev n h x C ok
    | clearLocal p k =>
      simp only [More.leavesStrays, Bool.not_eq_true'] at hm
      simp only [more, clearLocal, hm, Bool.false_eq_true, if_false]
      exact clear_core C p k
    | _ => simp [More.leavesStrays] at hm


theorem Reach.core {ms : ModelSet} {h : Heap} (R : Reach ms h) : Core h := by
  induction R with
  | empty => exact core_empty
  | step c _ ha ih => exact (step_core ih c ha).1
  | load fe force n p _ M ih => exact (loadLinks_keeps ih M).core
  | more m _ ok ih => exact (more_core ih m ok).1

theorem Tidy.inv {ms : ModelSet} {h : Heap} (R : Tidy ms h) : Core h ∧ NoZombie h := by
  induction R with
  | empty => exact ⟨core_empty, nz_empty⟩
  | step c _ ha hc ih => exact ⟨(step_core ih.1 c ha).1, (step_core ih.1 c ha).2.2 hc ih.2⟩
  | load fe force n p _ M ih => exact ⟨(loadLinks_keeps ih.1 M).core, (loadLinks_keeps ih.1 M).nz ih.2⟩
  | more m _ ok hm ih => exact ⟨(more_lkeeps ih.1 m ok hm).core, (more_lkeeps ih.1 m ok hm).nz ih.2⟩

/-- after a history of calls without `clear` and `sort` no bound method uses an outdated dict with members -/
theorem Tidy.staleNil {ms : ModelSet} {h : Heap} (T : Tidy ms h) {i : Id} {F : Fams} (e : (h.node i).stale = some F) : F = [] := by
  have H : Sep (fun _ => False) False h := by
    clear e
    induction T with
    | empty => exact ⟨fun _ h => h.elim, fun i _ => ⟨by simp, by simp, (fun F e => by cases e), (fun F e => by cases e), by simp⟩⟩
    | step c _ _ hc ih => exact (NI.step ms ih c (by simp) (by rintro p k rfl; simp [Call.leavesStrays] at hc)).sep
    | load fe force n p T M ih => exact (loadLinks_keeps T.inv.1 M).sn ih
    | more m T ok hm ih => exact (more_lkeeps T.inv.1 m ok hm).sn ih
  exact ((H.out i id).stale F e).1.resolve_left id

/-- the items below a root without parent are separated from all others -/
theorem Tidy.sep {ms : ModelSet} {h : Heap} (T : Tidy ms h) {r : Id} (hr : h.par r = none) (hl : r < h.next) : Sep (Below h r) True h := by
  obtain ⟨C, Z⟩ := T.inv
  have W := C.wf
  have up : ∀ {p c : Id}, c ∈ h.kids p → Below h r c → Below h r p := by
    intro p c hc b
    cases b with
    | refl =>
      obtain ⟨q, e, rfl, _⟩ := W.kid_parent p _ hc
      simp [Heap.par, e] at hr
    | step b' hc' =>
      obtain ⟨q, e, rfl, _⟩ := W.kid_parent p _ hc
      obtain ⟨q', e', rfl, _⟩ := W.kid_parent _ _ hc'
      rw [e] at e'; cases e'; exact b'
  refine ⟨fun i b => ?_, fun i hi => ⟨fun c hc b => hi (up hc b), fun q e b => hi (.step b (Z i q.pid (by simp [Heap.par, e]))), fun F hF e he x hx b => ?_,
    fun F e => ?_, fun l y e1 e2 => ?_⟩⟩
  · induction b with
    | refl => exact hl
    | step _ hc _ => exact W.kids_lt _ _ hc
  · by_cases hk : h.kids i = []
    · have := W.fams_nil i F hk hF
      subst this; simp at he
    · obtain ⟨F', e', O⟩ := W.fams_ok i hk
      rw [hF] at e'; cases e'
      have g := O.get e.1
      have : F.get? e.1 = some e.2 := mem_lookup O.keys he
      rw [this] at g
      split at g
      · cases g
      · have g := Option.some.inj g
        rw [g] at hx
        exact hi (up (List.mem_of_mem_filter hx) b)
  · obtain rfl := T.staleNil e; exact ⟨.inl trivial, .nil⟩
  · have := C.nocov i
    simp [coverOf, e1, e2] at this

end ITree
