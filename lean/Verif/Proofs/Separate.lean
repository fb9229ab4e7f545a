import Verif.Proofs.Steps2
/-
Separation: what a call cannot reach it does not change.
-/
namespace ITree

/-- no member of the dict is in `N` -/
def FOut (N : Id → Prop) (F : Fams) : Prop := ∀ e ∈ F, ∀ x ∈ e.2, ¬ N x

/-- the object refers to no item of `N` (and has a non-empty stale dict only if `Q`) -/
structure NodeOut (N : Id → Prop) (Q : Prop) (n : Node) : Prop where
  items : ∀ c ∈ n.items, ¬ N c
  parent : ∀ r, n.parent = some r → ¬ N r.pid
  fams : ∀ F, n.fams = some F → FOut N F
  stale : ∀ F, n.stale = some F → (Q ∨ F = []) ∧ FOut N F
  cover : ∀ l y, n.link = some l → l.cover = some y → ¬ N y

/-- no object outside `N` refers to an item of `N` -/
structure Sep (N : Id → Prop) (Q : Prop) (h : Heap) : Prop where
  lt : ∀ i, N i → i < h.next
  out : ∀ i, ¬ N i → NodeOut N Q (h.node i)

/-- the objects of `N` are untouched and still separated -/
structure NI (N : Id → Prop) (Q : Prop) (h h' : Heap) : Prop where
  sep : Sep N Q h'
  next : h.next ≤ h'.next
  same : ∀ i, N i → h'.node i = h.node i

section
variable {N : Id → Prop} {Q : Prop} {h h' : Heap}

theorem NI.refl (S : Sep N Q h) : NI N Q h h := ⟨S, Nat.le_refl _, fun _ _ => rfl⟩
theorem NI.trans {h1 h2 h3 : Heap} (A : NI N Q h1 h2) (B : NI N Q h2 h3) : NI N Q h1 h3 :=
  ⟨B.sep, Nat.le_trans A.next B.next, fun i hi => (B.same i hi).trans (A.same i hi)⟩

theorem NI.modify (S : Sep N Q h) {i : Id} {f : Node → Node} (hi : ¬ N i) (hf : NodeOut N Q (f (h.node i))) : NI N Q h (h.modify i f) := by
  refine ⟨⟨S.lt, fun j hj => ?_⟩, Nat.le_refl _, fun j hj => ?_⟩
  · simp only [Heap.modify]; split
    · next e => subst e; exact hf
    · exact S.out j hj
  · have : j ≠ i := fun e => hi (e ▸ hj)
    simp [Heap.modify, this]

theorem NI.setParent (S : Sep N Q h) {x : Id} {r : Option PRef} (hx : ¬ N x) (hr : ∀ q, r = some q → ¬ N q.pid) : NI N Q h (h.setParent x r) :=
  NI.modify S hx ⟨(S.out x hx).items, hr, (S.out x hx).fams, (S.out x hx).stale, (S.out x hx).cover⟩
theorem NI.setItems (S : Sep N Q h) {p : Id} {l : List Id} (hp : ¬ N p) (hl : ∀ c ∈ l, ¬ N c) : NI N Q h (h.setItems p l) :=
  NI.modify S hp ⟨hl, (S.out p hp).parent, (S.out p hp).fams, (S.out p hp).stale, (S.out p hp).cover⟩
theorem NI.setFams (S : Sep N Q h) {p : Id} {F : Fams} (hp : ¬ N p) (hF : FOut N F) : NI N Q h (h.setFams p F) :=
  NI.modify S hp ⟨(S.out p hp).items, (S.out p hp).parent, fun G e => by cases e; exact hF, (S.out p hp).stale, (S.out p hp).cover⟩

theorem Sep.next (S : Sep N Q h) : ¬ N h.next := fun a => by have := S.lt _ a; omega

theorem NI.alloc (S : Sep N Q h) {n : Node} (hn : NodeOut N Q n) : NI N Q h (h.alloc n).1 ∧ ¬ N (h.alloc n).2 := by
  refine ⟨⟨⟨fun i hi => ?_, fun i hi => ?_⟩, ?_, fun i hi => ?_⟩, S.next⟩
  · have := S.lt i hi; simp only [Heap.alloc]; omega
  · simp only [Heap.alloc]; split
    · exact hn
    · exact S.out i hi
  · simp [Heap.alloc]
  · have := S.lt i hi
    have : i ≠ h.next := by omega
    simp [Heap.alloc, this]

/-! ### dicts -/

theorem FOut.nil : FOut N [] := by simp [FOut]
theorem FOut.get {F : Fams} (H : FOut N F) {t : Tag} {l : List Id} (hl : F.get? t = some l) : ∀ x ∈ l, ¬ N x := by
  induction F with
  | nil => simp [Fams.get?] at hl
  | cons e F ih =>
    obtain ⟨a, b⟩ := e
    simp only [Fams.get?, List.lookup_cons] at hl ih
    split at hl
    · cases hl; exact H (a, l) (by simp)
    · exact ih (fun e he => H e (by simp [he])) hl
theorem FOut.getD {F : Fams} (H : FOut N F) {t : Tag} : ∀ x ∈ (F.get? t).getD [], ¬ N x := by
  cases e : F.get? t with
  | none => simp
  | some l => exact H.get e
theorem FOut.set {F : Fams} (H : FOut N F) {t : Tag} {l : List Id} (hl : ∀ x ∈ l, ¬ N x) : FOut N (F.set t l) := by
  induction F with
  | nil => simpa [Fams.set, FOut] using hl
  | cons e F ih =>
    obtain ⟨a, b⟩ := e
    have ih := ih fun e he => H e (by simp [he])
    simp only [Fams.set]
    split
    · intro e he
      rcases List.mem_cons.1 he with rfl | he
      · exact hl
      · exact H e (by simp [he])
    · intro e he
      rcases List.mem_cons.1 he with rfl | he
      · exact H _ (by simp)
      · exact ih e he
theorem FOut.del {F : Fams} (H : FOut N F) {t : Tag} : FOut N (F.del t) := fun e he => H e (List.mem_of_mem_filter he)
theorem FOut.append {F : Fams} (H : FOut N F) {t : Tag} {x : Id} (hx : ¬ N x) : FOut N (famAppend F t x).1 := by
  unfold famAppend
  split
  · exact H.set (by simpa using hx)
  · next l hl => exact H.set (by
      intro y hy
      rcases List.mem_append.1 hy with hy | hy
      · exact H.get hl y hy
      · simp at hy; exact hy ▸ hx)

theorem Sep.kids (S : Sep N Q h) {p : Id} (hp : ¬ N p) : ∀ c ∈ h.kids p, ¬ N c := (S.out p hp).items
theorem Sep.fams (S : Sep N Q h) {p : Id} (hp : ¬ N p) : FOut N ((h.node p).fams.getD []) := by
  cases e : (h.node p).fams with
  | none => exact .nil
  | some F => exact (S.out p hp).fams F e
theorem Sep.bound' (S : Sep N Q h) {p : Id} (hp : ¬ N p) {F : Fams} (hF : h.boundFams p = some F) : FOut N F := by
  unfold Heap.boundFams at hF
  cases e : (h.node p).stale with
  | none => rw [e] at hF; exact (S.out p hp).fams F (by simpa using hF)
  | some G => rw [e] at hF; simp at hF; exact hF ▸ ((S.out p hp).stale G e).2
theorem Sep.bound (S : Sep N Q h) {p : Id} (hp : ¬ N p) : FOut N ((h.boundFams p).getD []) := by
  cases e : h.boundFams p with
  | none => exact .nil
  | some F => exact S.bound' hp e

/-! ### lists -/

theorem out_append {l m : List Id} (hl : ∀ c ∈ l, ¬ N c) (hm : ∀ c ∈ m, ¬ N c) : ∀ c ∈ l ++ m, ¬ N c := fun c hc =>
  (List.mem_append.1 hc).elim (hl c) (hm c)
theorem out_single {x : Id} (hx : ¬ N x) : ∀ c ∈ [x], ¬ N c := fun c hc => by simp at hc; exact hc ▸ hx
theorem out_cons {x : Id} {l : List Id} (hx : ¬ N x) (hl : ∀ c ∈ l, ¬ N c) : ∀ c ∈ x :: l, ¬ N c := fun c hc =>
  (List.mem_cons.1 hc).elim (fun e => e ▸ hx) (hl c)
theorem out_insert {l : List Id} {k : Int} {x : Id} (hl : ∀ c ∈ l, ¬ N c) (hx : ¬ N x) : ∀ c ∈ pyInsert l k x, ¬ N c := fun c hc => by
  rcases List.eq_or_mem_of_mem_insertIdx hc with e | hc
  · exact e ▸ hx
  · exact hl c hc
theorem out_set {l : List Id} {k : Int} {x : Id} (hl : ∀ c ∈ l, ¬ N c) (hx : ¬ N x) : ∀ c ∈ pySet l k x, ¬ N c := fun c hc => by
  unfold pySet at hc
  split at hc
  · rcases List.mem_or_eq_of_mem_set hc with hc | e
    · exact hl c hc
    · exact e ▸ hx
  · exact hl c hc
theorem out_del {l : List Id} {k : Int} (hl : ∀ c ∈ l, ¬ N c) : ∀ c ∈ pyDel l k, ¬ N c := fun c hc => by
  unfold pyDel at hc
  split at hc
  · exact hl c (List.mem_of_mem_eraseIdx hc)
  · exact hl c hc
theorem out_slice {l r : List Id} {s : PySlice} (hl : ∀ c ∈ l, ¬ N c) (hr : pySlice l s = some r) : ∀ c ∈ r, ¬ N c := fun c hc => by
  unfold pySlice at hr
  simp only [Option.map_eq_some_iff] at hr
  obtain ⟨ix, _, rfl⟩ := hr
  simp only [List.mem_filterMap] at hc
  obtain ⟨i, _, e⟩ := hc
  exact hl c (List.mem_of_getElem? e)
theorem out_mapM {l : List Id} {ks : List Int} {r : List Id} (hl : ∀ c ∈ l, ¬ N c) (hr : ks.mapM (pyGet l) = some r) : ∀ c ∈ r, ¬ N c := by
  induction ks generalizing r with
  | nil => simp at hr; subst hr; simp
  | cons k ks ih =>
    simp only [List.mapM_cons, Option.pure_def, Option.bind_eq_bind, Option.bind_eq_some_iff] at hr
    obtain ⟨a, ha, b, hb, e⟩ := hr
    cases e
    exact out_cons (hl _ (pyGet_mem ha)) (ih hb)
theorem out_tags {F : Fams} (H : FOut N F) {ts : List Tag} {r : List (List Id)} (hr : ts.mapM F.get? = some r) : ∀ c ∈ r.flatten, ¬ N c := by
  induction ts generalizing r with
  | nil => simp at hr; subst hr; simp
  | cons k ks ih =>
    simp only [List.mapM_cons, Option.pure_def, Option.bind_eq_bind, Option.bind_eq_some_iff] at hr
    obtain ⟨a, ha, b, hb, e⟩ := hr
    cases e
    rw [List.flatten_cons]
    exact out_append (H.get ha) (ih hb)
theorem out_remove {eq : Id → Id → Bool} {x : Id} {l r : List Id} (hl : ∀ c ∈ l, ¬ N c) (hr : pyRemove eq x l = some r) : ∀ c ∈ r, ¬ N c := by
  induction l generalizing r with
  | nil => simp [pyRemove] at hr
  | cons a l ih =>
    simp only [pyRemove] at hr
    split at hr
    · cases hr; exact fun c hc => hl c (by simp [hc])
    · simp only [Option.map_eq_some_iff] at hr
      obtain ⟨q, hq, rfl⟩ := hr
      exact out_cons (hl a (by simp)) (ih (fun c hc => hl c (by simp [hc])) hq)

/-! ### lookup -/

/-- the items of a result -/
def GetRes.all : GetRes → List Id | .one x => [x] | .many l => l

theorem out_fallback {F : Fams} (H : FOut N F) {tg : Target} {e : Err} {r : GetRes} (hr : fallbackTag F tg e = .ok r) : ∀ c ∈ r.all, ¬ N c := by
  unfold fallbackTag at hr
  split at hr
  · split at hr
    · next l hl => cases hr; exact H.get hl
    · cases hr
  · cases hr

theorem out_getKey {F : Fams} (H : FOut N F) {g : Tag} {sel : FamSel} {r : GetRes} (hr : getKey F g sel = .ok r) : ∀ c ∈ r.all, ¬ N c := by
  unfold getKey at hr
  simp only at hr
  split at hr
  · exact out_fallback H hr
  · next fam hf =>
    have hfam := H.get hf
    split at hr
    · cases hr; exact hfam
    · split at hr
      · next x hx => cases hr; exact out_single (hfam _ (pyGet_mem hx))
      · exact out_fallback H hr
    · split at hr
      · next l hl => cases hr; exact out_slice hfam hl
      · exact out_fallback H hr
    · split at hr
      · next l hl => cases hr; exact out_mapM hfam hl
      · exact out_fallback H hr
    · split at hr
      · split at hr
        · next l hl => cases hr; exact out_mapM hfam hl
        · exact out_fallback H hr
      · exact out_fallback H hr

theorem out_getItem1 (S : Sep N Q h) {p : Id} (hp : ¬ N p) {tg : Target} {r : GetRes} (hr : getItem1 h p tg = .ok r) : ∀ c ∈ r.all, ¬ N c := by
  unfold getItem1 at hr
  split at hr
  · exact out_getKey (S.bound hp) hr
  · split at hr
    · next x hx => cases hr; exact out_single (S.kids hp _ (pyGet_mem hx))
    · exact out_fallback (S.bound hp) hr
  · split at hr
    · next l hl => cases hr; exact out_slice (S.kids hp) hl
    · cases hr
  · split at hr
    · next ls hl =>
      split at hr
      · cases hr
      · cases hr; exact out_tags (S.bound hp) hl
    · cases hr
  · cases hr; exact S.kids hp
  · cases hr; exact fun c hc => S.kids hp c (List.mem_of_mem_filter hc)
  · split at hr
    · next l hl => cases hr; exact (S.bound hp).get hl
    · cases hr
  · cases hr
  · cases hr

mutual
theorem out_getItem (S : Sep N Q h) {p : Id} (hp : ¬ N p) : ∀ {tg : Target} {r : GetRes}, getItem h p tg = .ok r → ∀ c ∈ r.all, ¬ N c
  | .list l, r, hr => by
    unfold getItem at hr
    split at hr
    · cases hr
    · split at hr
      · next q hq =>
        split at hr
        · cases hr
        · cases hr; exact out_getItems S hp hq
      · cases hr
  | .int i, r, hr => by
    unfold getItem at hr; split at hr
    · cases hr
    · exact out_getItem1 S hp hr
  | .slice i, r, hr => by
    unfold getItem at hr; split at hr
    · cases hr
    · exact out_getItem1 S hp hr
  | .key g i, r, hr => by
    unfold getItem at hr; split at hr
    · cases hr
    · exact out_getItem1 S hp hr
  | .tag i, r, hr => by
    unfold getItem at hr; split at hr
    · cases hr
    · exact out_getItem1 S hp hr
  | .tags i, r, hr => by
    unfold getItem at hr; split at hr
    · cases hr
    · exact out_getItem1 S hp hr
  | .dots, r, hr => by
    unfold getItem at hr; split at hr
    · cases hr
    · exact out_getItem1 S hp hr
  | .filter i, r, hr => by
    unfold getItem at hr; split at hr
    · cases hr
    · exact out_getItem1 S hp hr
  | .item i, r, hr => by
    unfold getItem at hr; split at hr
    · cases hr
    · exact out_getItem1 S hp hr
theorem out_getItems (S : Sep N Q h) {p : Id} (hp : ¬ N p) : ∀ {ts : List Target} {r : List Id}, getItems h p ts = .ok r → ∀ c ∈ r, ¬ N c
  | [], r, hr => by simp [getItems] at hr; subst hr; simp
  | t :: ts, r, hr => by
    unfold getItems at hr
    split at hr
    · cases hr
    · next q hq =>
      split at hr
      · cases hr
      · next rs hrs =>
        cases hr
        have h1 := out_getItem S hp hq
        refine out_append ?_ (out_getItems S hp hrs)
        cases q <;> exact h1
end

/-! ### positions -/

theorem NI.scanFwd (c : Cache) (x : Id) : ∀ (l : List Id) (i : Nat) {h : Heap}, Sep N Q h → (∀ y ∈ l, ¬ N y) → NI N Q h (ITree.scanFwd c h x l i).1
  | [], i, h, S, hl => by simpa [ITree.scanFwd] using NI.refl S
  | y :: ys, i, h, S, hl => by
    have hy := hl y (by simp)
    simp only [ITree.scanFwd]
    split
    · exact .refl S
    · next r hr =>
      have A : NI N Q h (h.setParent y (some (r.setC c i))) := NI.setParent S hy (by
        intro q e; cases e; have := (S.out y hy).parent r hr; cases c <;> exact this)
      split
      · exact .refl S
      · split
        · exact A
        · exact A.trans (NI.scanFwd c x ys (i + 1) A.sep fun z hz => hl z (by simp [hz]))
theorem NI.scanBwd (c : Cache) (x : Id) : ∀ (l : List Id) (i : Nat) {h : Heap}, Sep N Q h → (∀ y ∈ l, ¬ N y) → NI N Q h (ITree.scanBwd c h x l i).1
  | [], i, h, S, hl => by simpa [ITree.scanBwd] using NI.refl S
  | y :: ys, i, h, S, hl => by
    have hy := hl y (by simp)
    simp only [ITree.scanBwd]
    split
    · exact .refl S
    · next r hr =>
      have A : NI N Q h (h.setParent y (some (r.setC c i))) := NI.setParent S hy (by
        intro q e; cases e; have := (S.out y hy).parent r hr; cases c <;> exact this)
      split
      · exact .refl S
      · split
        · exact A
        · exact A.trans (NI.scanBwd c x ys (i - 1) A.sep fun z hz => hl z (by simp [hz]))

theorem NI.cachedPos (S : Sep N Q h) (c : Cache) {x : Id} {r : PRef} {l : List Id} (hx : ¬ N x) (hr : ¬ N r.pid) (hl : ∀ y ∈ l, ¬ N y) :
    NI N Q h (ITree.cachedPos c h x r l).1 := by
  have slow : NI N Q h (match windowFind l x (max 0 (r.getC c - 20)).toNat (min (l.length : Int) (r.getC c + 20 + 1)).toNat with
    | some i => if r.frozen then (h, Except.error Err.type) else (h.setParent x (some (r.setC c i)), .ok (((i : Int), false) : Int × Bool))
    | none => ((if 2 * r.getC c < l.length then ITree.scanFwd c h x l 0 else ITree.scanBwd c h x l.reverse (l.length - 1)).1,
        match (if 2 * r.getC c < l.length then ITree.scanFwd c h x l 0 else ITree.scanBwd c h x l.reverse (l.length - 1)).2 with
        | .ok i => .ok ((i : Int), true) | .error e => .error e)).1 := by
    split
    · split
      · exact .refl S
      · exact NI.setParent S hx (by intro q e; cases e; cases c <;> exact hr)
    · dsimp only
      split
      · exact .scanFwd c x _ _ S hl
      · exact .scanBwd c x _ _ S fun y hy => hl y (by simpa using hy)
  unfold ITree.cachedPos
  simp only
  split
  · split
    · exact .refl S
    · split
      · exact .refl S
      · exact slow
  · exact slow

theorem NI.idx (S : Sep N Q h) {x : Id} (hx : ¬ N x) : NI N Q h (h.idx x).1 := by
  unfold Heap.idx
  split
  · exact .refl S
  · next r hr =>
    have hp := (S.out x hx).parent r hr
    exact NI.cachedPos S .abs hx hp (S.kids hp)
theorem NI.tagIdx (S : Sep N Q h) {x : Id} (hx : ¬ N x) : NI N Q h (h.tagIdx x).1 := by
  unfold Heap.tagIdx
  split
  · exact .refl S
  · next r hr =>
    have hp := (S.out x hx).parent r hr
    split
    · exact .refl S
    · next F hF =>
      split
      · exact .refl S
      · next l hl => exact NI.cachedPos S .fam hx hp ((S.bound' hp hF).get hl)

theorem NI.famInsIdxAux (k : Int) : ∀ (fuel : Nat) (fam : List Id) (last : Nat) {h : Heap}, Sep N Q h → (∀ y ∈ fam, ¬ N y) →
    NI N Q h (ITree.famInsIdxAux fuel h fam k last).1
  | 0, fam, last, h, S, hf => by simpa [ITree.famInsIdxAux] using NI.refl S
  | fuel + 1, [], last, h, S, hf => by simpa [ITree.famInsIdxAux] using NI.refl S
  | fuel + 1, [x], last, h, S, hf => by
    have A := NI.idx S (hf x (by simp))
    simp only [ITree.famInsIdxAux]
    split <;> exact A
  | fuel + 1, x :: y :: fam, last, h, S, hf => by
    simp only [ITree.famInsIdxAux]
    split
    · exact .refl S
    · next z hz =>
      have A := NI.idx S (hf z (List.mem_of_getElem? hz))
      split
      · split
        · exact A.trans (NI.famInsIdxAux k fuel _ _ A.sep fun c hc => hf c (List.mem_of_mem_drop hc))
        · exact A.trans (NI.famInsIdxAux k fuel _ _ A.sep fun c hc => hf c (List.mem_of_mem_take hc))
      · exact A
      · exact A
theorem NI.famInsIdx (S : Sep N Q h) {fam : List Id} {k : Int} (hf : ∀ y ∈ fam, ¬ N y) : NI N Q h (ITree.famInsIdx h fam k).1 :=
  NI.famInsIdxAux k _ fam 0 S hf

end

end ITree
