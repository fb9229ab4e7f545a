import Verif.Props.Removing
import Verif.Props.Reorder
import Verif.Props.Defects
import Verif.Props.Positions
import Verif.Proofs.Near
/-
C05, C11: when `insert` and `move` return.  The family search of the code can only fail when cached positions are far from the truth;
reading `idx` of the children brings all caches to the truth.
-/
namespace ITree

/-- the cached absolute position of every child of `p` differs from its true position by at most `d` -/
def CachesWithin (h : Heap) (p : Id) (d : Nat) : Prop :=
  ∀ (c : Id) (n : Nat), (h.kids p)[n]? = some c → ∃ r, (h.node c).parent = some r ∧ r.absC - n ≤ d ∧ (n : Int) - r.absC ≤ d

theorem CachesWithin.near {h : Heap} (W : WF h) {p : Id} {d : Nat} (H : CachesWithin h p d) : ∀ y ∈ h.kids p, NearAt h p (h.kids p) d y := by
  intro y hy
  obtain ⟨n, hn⟩ := List.getElem?_of_mem hy
  obtain ⟨r, e1, e2, e3⟩ := H y n hn
  obtain ⟨r', g1, g2, g3, g4, g5⟩ := W.kid_parent p y hy
  rw [e1] at g1
  obtain rfl : r = r' := by simpa using g1
  exact ⟨r, n, e1, g2, g3, g4, hn, e2, e3⟩

theorem near_within {h : Heap} {p : Id} {d : Nat} (hnd : (h.kids p).Nodup) (H : ∀ y ∈ h.kids p, NearAt h p (h.kids p) d y) : CachesWithin h p d := by
  intro c n hn
  obtain ⟨r, m, e1, _, _, _, e5, e6, e7⟩ := H c (List.mem_of_getElem? hn)
  obtain rfl : n = m := by rw [← nodup_idxOf_unique hnd hn, nodup_idxOf_unique hnd e5]
  exact ⟨r, e1, e6, e7⟩

/-- reading the `idx` of all children brings all their caches to the truth and changes nothing else -/
theorem C17_reading_refreshes {ms : ModelSet} {h : Heap} (R : Reach ms h) (p : Id) :
    CachesWithin (readIdx h (h.kids p)) p 0 ∧ Unchanged h (readIdx h (h.kids p)) := by
  have W := R.core.wf
  have C := readIdx_ceq (h.kids p) h
  refine ⟨near_within ((C.wf W).kids_nodup p) fun y hy => ?_, C.unchanged⟩
  have hy' : y ∈ h.kids p := by rwa [C.kids] at hy
  have F := (readIdx_fresh (p := p) (h.kids p) W (fun _ h => h)).2 y hy'
  have F' : Fresh .abs (readIdx h (h.kids p)) ((readIdx h (h.kids p)).kids p) y := by rw [C.kids]; exact F
  exact F'.nearAt (C.wf W) hy

theorem prepItem_within {h : Heap} (W : WF h) {p : Id} {a : Arg} (hp : p < h.next) (ha : ∀ i, a = .item i → i < h.next ∧ h.par i = none) :
    ∃ x, (prepItem h a).2 = .ok x ∧ WF (prepItem h a).1 ∧ x ∉ (prepItem h a).1.kids p ∧ (prepItem h a).1.kids p = h.kids p ∧
      ∀ d, (∀ y ∈ h.kids p, NearAt h p (h.kids p) d y) → ∀ y ∈ (prepItem h a).1.kids p, NearAt (prepItem h a).1 p ((prepItem h a).1.kids p) d y := by
  cases a with
  | item i =>
    obtain ⟨hi, hpar⟩ := ha i rfl
    have hn : (h.node i).parent = none := by
      cases hh : (h.node i).parent with
      | none => rfl
      | some r => simp [Heap.par, hh] at hpar
    have e : prepItem h (.item i) = (h, .ok i) := by simp [prepItem, hn]
    rw [e]
    refine ⟨i, rfl, W, fun hm => ?_, rfl, fun d H => H⟩
    obtain ⟨r, e1, _⟩ := W.kid_parent p i hm
    rw [hn] at e1; simp at e1
  | val v =>
    have e : prepItem h (.val v) = ((h.alloc { tag := .noTag, value := v }).1, .ok h.next) := rfl
    rw [e]
    have hk : ∀ q, q ≠ h.next → (h.alloc { tag := .noTag, value := v }).1.kids q = h.kids q := fun q hq => by simp [Heap.alloc, Heap.kids, hq]
    have hkp := hk p (by omega)
    have hnp : ∀ i, i ≠ h.next → ((h.alloc { tag := .noTag, value := v }).1.node i).parent = (h.node i).parent := fun q hq => by simp [Heap.alloc, hq]
    have A : AllocRel h (h.alloc { tag := .noTag, value := v }).1 h.next { tag := .noTag, value := v } := by
      rcases prepItem_ok e with ⟨_, q, _⟩ | ⟨v', q, A⟩
      · simp at q
      · simp at q; subst q; exact A
    refine ⟨h.next, rfl, A.wf W, fun hm => ?_, hkp, fun d H y hy => ?_⟩
    · dsimp only at hm; rw [hkp] at hm; have := W.kids_lt p _ hm; omega
    · dsimp only at hy ⊢
      rw [hkp] at hy ⊢
      have := W.kids_lt p _ hy
      exact (H y hy).congr (hnp y (by omega))

/-- C05. If no cached position of the children of an unprotected item is off by more than 19, `insert(k, x)` returns for every index `k` in the range
-len..len and every free item (or other object) `x`, and the caches are off by at most one more. -/
theorem C05_insert_near {ms : ModelSet} {h : Heap} (R : Reach ms h) {p : Id} {a : Arg} {k : Int} {d : Nat} (hp : p < h.next) (hpr : h.isProtected p = false)
    (ha : ∀ i, a = .item i → i < h.next ∧ h.par i = none) (h0 : -((h.kids p).length : Int) ≤ k) (h1 : k ≤ (h.kids p).length) (hd : d ≤ 19) (H : CachesWithin h p d) :
    ∃ h' x, insert h p (some (.int k)) a = (h', .ok x) ∧ CachesWithin h' p (d + 1) := by
  have W := R.core.wf
  obtain ⟨x, e1, W1, e2, e3, e4⟩ := prepItem_within W hp ha
  have e4 := e4 d (H.near W)
  have hg : guardPlace h p a = none := by simp [guardPlace, hpr]
  have fin : ∀ h' x, insert h p (some (.int k)) a = (h', .ok x) → (∀ y ∈ h'.kids p, NearAt h' p (h'.kids p) ((d + 1 : Nat) : Int) y) →
      ∃ h' x, insert h p (some (.int k)) a = (h', .ok x) ∧ CachesWithin h' p (d + 1) := by
    intro h' x hr hn
    exact ⟨h', x, hr, near_within ((insert_spec W hp (fun i hi => (ha i hi).1) h0 hr).wf.kids_nodup p) hn⟩
  by_cases hnil : h.kids p = []
  · have hi : insert h p (some (.int k)) a = (appendItem (prepItem h a).1 p x, .ok x) := by
      simp only [insert, hg, e1, e3, hnil, if_true]
    refine fin _ _ hi fun y hy => ?_
    have hk : (appendItem (prepItem h a).1 p x).kids p = [x] := by
      unfold appendItem; rw [e3, hnil]; simp only [kids_setParent]; simp [Heap.kids, Heap.modify]
    rw [hk] at hy ⊢
    simp only [List.mem_singleton] at hy
    subst hy
    refine ⟨⟨p, 0, 0, false⟩, 0, ?_, rfl, rfl, by simp, rfl, by simp; omega, by simp; omega⟩
    unfold appendItem; rw [e3, hnil]; simp [node_setParent]
  · have hi : insert h p (some (.int k)) a = insertAt (prepItem h a).1 p x (if k < 0 then (h.kids p).length + k else k) := by
      simp only [insert, hg, e1, e3, hnil, if_false, insertPos]
    obtain ⟨h', g1, g2⟩ := insertAt_drift (k := if k < 0 then (h.kids p).length + k else k) (d := d) W1 (by rw [e3]; exact hnil) e2 (by split <;> omega)
      (by rw [e3]; split <;> omega) (by omega) (by omega) e4
    exact fin h' x (hi.trans g1) (by simpa using g2)

/-- `for k, v in kvs: t.insert(k, v)`, stopping at the first exception -/
def insertAll (h : Heap) (p : Id) : List (Int × Arg) → Res (List Id)
  | [] => (h, .ok [])
  | (k, a) :: r =>
    match insert h p (some (.int k)) a with
    | (h', .error e) => (h', .error e)
    | (h', .ok x) =>
      match insertAll h' p r with
      | (h'', .ok xs) => (h'', .ok (x :: xs))
      | (h'', .error e) => (h'', .error e)

/-- every index lies in the range -len..len at the time of its insertion -/
def InRange : Nat → List (Int × Arg) → Prop
  | _, [] => True
  | n, (k, _) :: r => -(n : Int) ≤ k ∧ k ≤ n ∧ InRange (n + 1) r

/-- C05. After the positions of the children were read (or whenever no cache is off by more than `d`), `20 - d` insertions of objects at indexes inside the list
all return and have the effect of `list.insert`, one after the other. -/
theorem C05_inserts {ms : ModelSet} : ∀ (kvs : List (Int × Val)) {h : Heap}, Reach ms h → ∀ {p : Id} {d : Nat}, p < h.next → h.isProtected p = false →
    InRange (h.kids p).length (kvs.map fun e => (e.1, .val e.2)) → d + kvs.length ≤ 20 → CachesWithin h p d →
    ∃ h' xs, insertAll h p (kvs.map fun e => (e.1, .val e.2)) = (h', .ok xs) ∧ xs.length = kvs.length ∧
      h'.kids p = (List.zip kvs xs).foldl (fun l e => listInsert l e.1.1 e.2) (h.kids p) := by
  intro kvs
  induction kvs with
  | nil => intro h R p d _ _ _ _ _; exact ⟨h, [], rfl, rfl, rfl⟩
  | cons e r ih =>
    intro h R p d hp hpr hr hd H
    obtain ⟨k, v⟩ := e
    obtain ⟨r1, r2, r3⟩ := hr
    simp only [List.length_cons] at hd
    obtain ⟨h1, x, e1, e2⟩ := C05_insert_near (a := .val v) R hp hpr (by simp) r1 r2 (by omega) H
    have K : Allowed h (.insert p (some (.int k)) (.val v)) := by
      refine ⟨hp, by simp [ArgOK], fun k' hk' => ?_, ?_, ?_⟩
      · simp at hk'; omega
      · rw [e1]; simp
      · rw [e1]; simp
    have R1 : Reach ms h1 := by
      have := Reach.step (ms := ms) _ R K
      have e : (step ms h (.insert p (some (.int k)) (.val v))).1 = h1 := by show (insert h p (some (.int k)) (.val v)).1 = h1; rw [e1]
      rwa [e] at this
    obtain ⟨s1, s2, s3, s4⟩ := C05_insert_partial R hp (by simp) r1 e1
    have S := insert_spec R.core.wf hp (a := .val v) (by simp) r1 e1
    have hpr1 : h1.isProtected p = false := by
      simp only [Heap.isProtected] at hpr ⊢
      rw [← hpr]
      congr 1
      exact S.frame.flags p hp
    have hlen : (h1.kids p).length = (h.kids p).length + 1 := by
      rw [S.kids, List.length_insertIdx]
      rw [if_pos S.le]
    obtain ⟨h2, xs, g1, g2, g3⟩ := ih R1 (p := p) (d := d + 1) (Nat.lt_of_lt_of_le hp S.frame.next) hpr1 (by rw [hlen]; exact r3) (by omega) e2
    refine ⟨h2, x :: xs, ?_, by simp [g2], ?_⟩
    · simp only [List.map_cons, insertAll, e1, g1]
    · rw [g3, s1]; rfl

/-- C05, in words of the API: after `[c.idx for c in t]` the next 20 insertions inside the list return and do what `list.insert` does. -/
theorem C05_inserts_after_reading {ms : ModelSet} {h : Heap} (R : Reach ms h) {p : Id} (hp : p < h.next) (hpr : h.isProtected p = false)
    (kvs : List (Int × Val)) (hr : InRange (h.kids p).length (kvs.map fun e => (e.1, .val e.2))) (hl : kvs.length ≤ 20) :
    ∃ h' xs, insertAll (readIdx h (h.kids p)) p (kvs.map fun e => (e.1, .val e.2)) = (h', .ok xs) ∧ xs.length = kvs.length ∧
      h'.kids p = (List.zip kvs xs).foldl (fun l e => listInsert l e.1.1 e.2) (h.kids p) := by
  have C := readIdx_ceq (h.kids p) h
  have R' : ∀ (l : List Id) {h : Heap}, Reach ms h → Reach ms (readIdx h l) := by
    intro l
    induction l with
    | nil => intro h R; exact R
    | cons y ys ih => intro h R; exact ih (Reach.step (.readIdx y) R trivial)
  have := C05_inserts kvs (R' (h.kids p) R) (p := p) (d := 0) (by rw [C.next]; exact hp) (by rw [C.isProtected]; exact hpr) (by rw [C.kids]; exact hr) (by omega)
    (C17_reading_refreshes R p).1
  rwa [C.kids] at this

example : CachesWithin demo 0 0 := by
  intro c n hn
  have : n < 4 := (List.getElem?_eq_some_iff.1 hn).1
  have h4 : demo.kids 0 = [1, 2, 3, 5] := by decide
  rw [h4] at hn
  match n, this with
  | 0, _ | 1, _ | 2, _ | 3, _ => simp at hn; subst hn; exact ⟨_, rfl, by decide +kernel, by decide +kernel⟩

example : ∃ h' xs, insertAll (readIdx demo (demo.kids 0)) 0 [(2, .val .none), (-1, .val (.int 7))] = (h', .ok xs) ∧ h'.kids 0 = [1, 2, 7, 3, 8, 5] := by
  obtain ⟨h', xs, e, l, k⟩ := C05_inserts_after_reading demo_tidy.reach (p := 0) (by decide) (by decide) [(2, .none), (-1, .int 7)] ⟨by decide, by decide, by decide, by decide, trivial⟩ (by decide)
  refine ⟨h', xs, e, ?_⟩
  have e2 : (insertAll (readIdx demo (demo.kids 0)) 0 [(2, .val .none), (-1, .val (.int 7))]).2 = .ok [7, 8] := by decide +kernel
  have : xs = [7, 8] := by
    have h3 := congrArg Prod.snd e
    simp only [List.map_cons, List.map_nil] at h3
    rw [e2] at h3
    simpa using h3.symm
  subst this
  rw [k]; decide

/-- C05, C24 are false already for a tiny tree: indexes beyond the end are stored as positions, so the third `t.insert(1000, v)` on a new item raises AttributeError, and the
inserted object (3) stays in the list without parent. -/
theorem C05_C24_insert_beyond_end : (let h := run ms0 Heap.empty [.new (.other 0) .noValue [] 0#6, .insert 0 (some (.int 1000)) (.val .none), .insert 0 (some (.int 1000)) (.val .none)]
    h.kids 0 = [1, 2] ∧ h.isProtected 0 = false ∧ (let r := insert h 0 (some (.int 1000)) (.val .none); r.2 = .error .attribute ∧ r.1.kids 0 = [1, 2, 3] ∧ r.1.par 3 = none)) := by
  decide +kernel

/-! ### move -/

theorem getElem?_eraseIdx_near {l : List Id} {m n : Nat} {y : Id} (hn : l[n]? = some y) (hne : n ≠ m) :
    (l.eraseIdx m)[n]? = some y ∧ n < m ∨ (l.eraseIdx m)[n - 1]? = some y ∧ m < n := by
  rw [List.getElem?_eraseIdx, List.getElem?_eraseIdx]
  by_cases h : n < m
  · left; simp [h, hn]
  · right
    have : ¬ n - 1 < m := by omega
    have e : n - 1 + 1 = n := by omega
    simp [this, e, hn]; omega

theorem dropFromFamily_parent {g h' : Heap} {p x y : Id} (hr : dropFromFamily g p x = (h', .ok y)) (z : Id) (hz : z ≠ x) : (h'.node z).parent = (g.node z).parent := by
  unfold dropFromFamily at hr
  dsimp only at hr
  split at hr
  · simp at hr
  · split at hr
    · simp only [Prod.mk.injEq] at hr; rw [← hr.1]; simp [node_setParent, hz, parent_setFams]
    · split at hr
      · simp at hr
      · split at hr
        · simp at hr
        · simp only [Prod.mk.injEq] at hr; rw [← hr.1]; simp [node_setParent, hz, parent_setFams]

/-- C11. If no cached position of the children of an unprotected item is off by more than 18 – in particular after their positions were read – `x.move(k)` of a child returns for every
index. -/
theorem C11_move_near {ms : ModelSet} {h : Heap} (R : Reach ms h) {p x : Id} {k : Int} {d : Nat} (hx : x ∈ h.kids p) (hpr : h.isProtected p = false)
    (hd : d ≤ 18) (H : CachesWithin h p d) : ∃ h', move h x (some (.int k)) = (h', .ok x) := by
  have W := R.core.wf
  have N := R.core.nocov
  obtain ⟨m, hm⟩ := List.getElem?_of_mem hx
  obtain ⟨r, r1, r2, _⟩ := W.kid_parent p x hx
  have Nr := H.near W
  -- reading the position of `x`
  have C := idx_ceq h x
  obtain ⟨n', e1, e2⟩ := idx_child W hx
  obtain rfl : m = n' := by rw [← nodup_idxOf_unique (W.kids_nodup p) hm, nodup_idxOf_unique (W.kids_nodup p) e2]
  have Nr1 : ∀ y ∈ h.kids p, NearAt (h.idx x).1 p (h.kids p) d y := fun y hy => by
    have := ((Nr x hx).mono (by omega)).idx' (by omega) (Nr y hy)
    rwa [C.kids] at this
  -- taking it out
  have W1 := C.wf W
  have hm1 : ((h.idx x).1.kids p)[m]? = some x := by rw [C.kids]; exact hm
  have hlt := (List.getElem?_eq_some_iff.1 hm).1
  obtain ⟨h2, g1, D⟩ := dropFromFamily_spec W1 hm1
  have hdel : delInt (h.idx x).1 p (m : Int) = (h2, .ok x) := by
    have hne : (h.idx x).1.kids p ≠ [] := by intro e; rw [e] at hm1; simp at hm1
    have hg : guardDel (h.idx x).1 p = .ok false := by simp [guardDel, C.isProtected, hpr]
    have hp : pyPos ((h.idx x).1.kids p).length (m : Int) = some m := by rw [C.kids]; simp [pyPos, hlt]
    unfold delInt
    simp only [hg, hne, if_false, hp, hm1, Bool.false_and, Bool.false_eq_true, C.noCover N x, g1]
  have hby : delByItem h p x = (h2, .ok x) := by unfold delByItem; simp only [e1, hdel]
  have hmv : move h x (some (.int k)) = insert h2 p (some (.int k)) (.item x) := by
    unfold move
    simp only [r1, r2, hpr, Bool.false_and, Bool.false_eq_true, if_false, hby]
  -- the other caches
  have hk2 : h2.kids p = (h.kids p).eraseIdx m := by rw [D.kids_p, C.kids]
  have N2 : ∀ y ∈ h2.kids p, NearAt h2 p (h2.kids p) 19 y := by
    intro y hy
    rw [hk2] at hy ⊢
    have hyx : y ≠ x := ((mem_eraseIdx_iff (W.kids_nodup p) hm y).1 hy).2
    obtain ⟨r', n, a1, a2, a3, a4, a5, a6, a7⟩ := Nr1 y (List.mem_of_mem_eraseIdx hy)
    have hpn : (h2.node y).parent = some r' := by rw [dropFromFamily_parent g1 y hyx, parent_setItems, a1]
    have hnm : n ≠ m := by rintro rfl; rw [hm] at a5; simp at a5; exact hyx a5.symm
    rcases getElem?_eraseIdx_near a5 hnm with ⟨b, _⟩ | ⟨b, _⟩
    · exact ⟨r', n, hpn, a2, a3, a4, b, by omega, by omega⟩
    · exact ⟨r', n - 1, hpn, a2, a3, a4, b, by omega, by omega⟩
  have W2 : WF h2 := D.wf W1
  rw [hmv]
  have hg : guardPlace h2 p (.item x) = none := by simp [guardPlace, Heap.isProtected, D.flags, C.flags, show (h.flags p).has Flags.treeProtected = false from hpr]
  simp only [insert, hg, prepItem, D.par_x, Option.isSome_none, Bool.false_eq_true, if_false]
  by_cases hnil : h2.kids p = []
  · simp only [hnil, if_true]; exact ⟨_, rfl⟩
  · simp only [hnil, if_false, insertPos]
    exact insertAt_near W2 hnil fun y hy _ => N2 y hy

example : ∃ h', move (readIdx demo (demo.kids 0)) 5 (some (.int 1)) = (h', .ok 5) :=
  C11_move_near (ms := ms0) (p := 0) (d := 0) (Reach.step (.readIdx 5) (Reach.step (.readIdx 3) (Reach.step (.readIdx 2) (Reach.step (.readIdx 1) demo_tidy.reach trivial) trivial) trivial) trivial)
    (by decide +kernel) (by decide +kernel) (by omega) (C17_reading_refreshes demo_tidy.reach 0).1

end ITree
