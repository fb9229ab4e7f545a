import Verif.Proofs.Basic
/-
Reading positions through the caches changes nothing but caches and delivers the true position.
-/
namespace ITree

/-- parent references that differ in their caches only (and stay non-negative) -/
def PEq : Option PRef → Option PRef → Prop
  | none, none => True
  | some r, some r' => r'.pid = r.pid ∧ r'.frozen = r.frozen ∧ (0 ≤ r.absC → 0 ≤ r'.absC) ∧ (0 ≤ r.famC → 0 ≤ r'.famC)
  | _, _ => False

theorem PEq.refl (r) : PEq r r := by cases r <;> simp [PEq]
theorem PEq.trans {a b c} (h1 : PEq a b) (h2 : PEq b c) : PEq a c := by
  cases a <;> cases b <;> cases c <;> simp_all [PEq]

/-- heaps that differ in position caches only -/
structure CEq (h h' : Heap) : Prop where
  next : h'.next = h.next
  node : ∀ i, h'.node i = { h.node i with parent := (h'.node i).parent }
  par : ∀ i, PEq (h.node i).parent (h'.node i).parent

namespace CEq
theorem refl (h : Heap) : CEq h h := ⟨rfl, fun _ => rfl, fun _ => PEq.refl _⟩
theorem trans {a b c : Heap} (h1 : CEq a b) (h2 : CEq b c) : CEq a c where
  next := h2.next.trans h1.next
  node i := by rw [h2.node i, h1.node i]
  par i := (h1.par i).trans (h2.par i)

variable {h h' : Heap} (H : CEq h h')
include H
theorem kids (p) : h'.kids p = h.kids p := by simp only [Heap.kids]; rw [H.node p]
theorem tag (p) : h'.tag p = h.tag p := by simp only [Heap.tag]; rw [H.node p]
theorem flags (p) : h'.flags p = h.flags p := by simp only [Heap.flags]; rw [H.node p]
theorem value (p) : (h'.node p).value = (h.node p).value := by rw [H.node p]
theorem link (p) : (h'.node p).link = (h.node p).link := by rw [H.node p]
theorem fams (p) : (h'.node p).fams = (h.node p).fams := by rw [H.node p]
theorem stale (p) : (h'.node p).stale = (h.node p).stale := by rw [H.node p]
theorem boundFams (p) : h'.boundFams p = h.boundFams p := by simp only [Heap.boundFams]; rw [H.node p]
theorem famView (p t) : ITree.famView h' p t = ITree.famView h p t := by
  simp only [ITree.famView, H.kids, H.tag]
theorem parent_none (i) : (h'.node i).parent = none ↔ (h.node i).parent = none := by
  have := H.par i
  revert this; generalize (h.node i).parent = a; generalize (h'.node i).parent = b
  intro this; cases a <;> cases b <;> simp_all [PEq]
theorem parent_some {i r} (hr : (h.node i).parent = some r) : ∃ r', (h'.node i).parent = some r' ∧
    r'.pid = r.pid ∧ r'.frozen = r.frozen ∧ (0 ≤ r.absC → 0 ≤ r'.absC) ∧ (0 ≤ r.famC → 0 ≤ r'.famC) := by
  have := H.par i
  rw [hr] at this
  cases h2 : (h'.node i).parent with
  | none => rw [h2] at this; exact this.elim
  | some r' => rw [h2] at this; exact ⟨r', rfl, this⟩
theorem par' (i) : h'.par i = h.par i := by
  cases hp : (h.node i).parent with
  | none => simp only [Heap.par, hp, (H.parent_none i).2 hp]
  | some r => obtain ⟨r', h1, h2, _⟩ := H.parent_some hp; simp only [Heap.par, hp, h1, Option.map_some, h2]
theorem linkLoaded (p) : h'.linkLoaded p = h.linkLoaded p := by simp only [Heap.linkLoaded, H.link]
theorem linkTags (p) : h'.linkTags p = h.linkTags p := by simp only [Heap.linkTags, H.link]
theorem isProtected (p) : h'.isProtected p = h.isProtected p := by simp only [Heap.isProtected, H.flags]
theorem isLinkRoot (p) : h'.isLinkRoot p = h.isLinkRoot p := by simp only [Heap.isLinkRoot, H.flags]

theorem snap (n x) : h'.snap n x = h.snap n x := by
  induction n generalizing x with
  | zero => simp only [Heap.snap]; rw [H.node x]
  | succ n ih =>
    simp only [Heap.snap]
    have : h'.snap n = h.snap n := funext ih
    rw [this, H.node x]
theorem tree (x) : h'.tree x = h.tree x := by simp only [Heap.tree, H.next, H.snap]

theorem wf (W : WF h) : WF h' where
  fresh x hx := by
    have := W.fresh x (H.next ▸ hx)
    exact ⟨by rw [H.kids]; exact this.1, (H.parent_none x).2 this.2⟩
  kids_lt p c hc := by rw [H.next]; exact W.kids_lt p c (H.kids p ▸ hc)
  kids_nodup p := by rw [H.kids]; exact W.kids_nodup p
  kid_parent p c hc := by
    obtain ⟨r, h1, h2, h3, h4, h5⟩ := W.kid_parent p c (H.kids p ▸ hc)
    obtain ⟨r', g1, g2, g3, g4, g5⟩ := H.parent_some h1
    exact ⟨r', g1, g2.trans h2, g3.trans h3, g4 h4, g5 h5⟩
  stale_none p hp := by rw [H.stale]; exact W.stale_none p (by rwa [H.kids] at hp)
  fams_ok p hp := by
    obtain ⟨F, h1, h2⟩ := W.fams_ok p (by rwa [H.kids] at hp)
    exact ⟨F, by rw [H.fams, h1], h2.keys, fun t => by rw [h2.get, H.famView]⟩
  fams_nil p F hp hF := W.fams_nil p F (by rwa [H.kids] at hp) (by rwa [H.fams] at hF)

theorem noZombie (Z : NoZombie h) : NoZombie h' := fun c p hc => by
  rw [H.kids]; rw [H.par'] at hc; exact Z c p hc
end CEq

theorem CEq.setC {h : Heap} {y : Id} {r : PRef} (hr : (h.node y).parent = some r) (c : Cache) (i : Int) (hi : 0 ≤ i) :
    CEq h (h.setParent y (some (r.setC c i))) where
  next := rfl
  node j := by simp only [node_setParent]; split <;> rfl
  par j := by
    simp only [parent_setParent]; split
    · next e => subst e; rw [hr]; cases c <;> simp [PEq, PRef.setC, hi]
    · exact PEq.refl _

theorem CEq.setRef {h : Heap} {y : Id} {r r' : PRef} (hr : (h.node y).parent = some r) (h1 : r'.pid = r.pid)
    (h2 : r'.frozen = r.frozen) (h3 : 0 ≤ r'.absC) (h4 : 0 ≤ r'.famC) : CEq h (h.setParent y (some r')) where
  next := rfl
  node j := by simp only [node_setParent]; split <;> rfl
  par j := by
    simp only [parent_setParent]; split
    · next e => subst e; rw [hr]; simp [PEq, h1, h2, h3, h4]
    · exact PEq.refl _

theorem scanFwd_ceq (c : Cache) (x : Id) (l : List Id) : ∀ (h : Heap) (i : Nat), CEq h (scanFwd c h x l i).1 := by
  induction l with
  | nil => intro h i; exact CEq.refl h
  | cons y ys ih =>
    intro h i
    simp only [scanFwd]
    split
    · exact CEq.refl h
    · next r hr =>
      split
      · exact CEq.refl h
      · split
        · exact CEq.setC hr c i (by omega)
        · exact (CEq.setC hr c i (by omega)).trans (ih _ _)

theorem scanBwd_ceq (c : Cache) (x : Id) (l : List Id) : ∀ (h : Heap) (i : Nat), CEq h (scanBwd c h x l i).1 := by
  induction l with
  | nil => intro h i; exact CEq.refl h
  | cons y ys ih =>
    intro h i
    simp only [scanBwd]
    split
    · exact CEq.refl h
    · next r hr =>
      split
      · exact CEq.refl h
      · split
        · exact CEq.setC hr c i (by omega)
        · exact (CEq.setC hr c i (by omega)).trans (ih _ _)

theorem scanFwd_ok (c : Cache) (x : Id) (l : List Id) : ∀ (h : Heap) (i n : Nat), (scanFwd c h x l i).2 = .ok n →
    ∃ j, l[j]? = some x ∧ n = i + j := by
  induction l with
  | nil => intro h i n hn; simp [scanFwd] at hn
  | cons y ys ih =>
    intro h i n hn
    simp only [scanFwd] at hn
    split at hn
    · simp at hn
    · split at hn
      · simp at hn
      · split at hn
        · next e => simp at hn; exact ⟨0, by simp [e], by omega⟩
        · obtain ⟨j, h1, h2⟩ := ih _ _ _ hn
          exact ⟨j + 1, by simpa using h1, by omega⟩

theorem scanBwd_ok (c : Cache) (x : Id) (l : List Id) : ∀ (h : Heap) (i n : Nat), (scanBwd c h x l i).2 = .ok n →
    ∃ j, l[j]? = some x ∧ n = i - j := by
  induction l with
  | nil => intro h i n hn; simp [scanBwd] at hn
  | cons y ys ih =>
    intro h i n hn
    simp only [scanBwd] at hn
    split at hn
    · simp at hn
    · split at hn
      · simp at hn
      · split at hn
        · next e => simp at hn; exact ⟨0, by simp [e], by omega⟩
        · obtain ⟨j, h1, h2⟩ := ih _ _ _ hn
          exact ⟨j + 1, by simpa using h1, by omega⟩

/-- every member of the list has a writable parent reference -/
def Scannable (h : Heap) (l : List Id) : Prop := ∀ y ∈ l, ∃ r, (h.node y).parent = some r ∧ r.frozen = false

theorem Scannable.ceq {h h' : Heap} {l} (S : Scannable h l) (H : CEq h h') : Scannable h' l := fun y hy => by
  obtain ⟨r, h1, h2⟩ := S y hy
  obtain ⟨r', g1, _, g3, _⟩ := H.parent_some h1
  exact ⟨r', g1, g3.trans h2⟩

theorem scanFwd_succ (c : Cache) (x : Id) (l : List Id) : ∀ (h : Heap) (i : Nat), Scannable h l → x ∈ l →
    ∃ n, (scanFwd c h x l i).2 = .ok n := by
  induction l with
  | nil => intro h i _ hx; simp at hx
  | cons y ys ih =>
    intro h i S hx
    obtain ⟨r, hr, hf⟩ := S y (by simp)
    simp only [scanFwd, hr, hf]
    by_cases e : y = x
    · simp [e]
    · simp only [Bool.false_eq_true, if_false, if_neg e]
      refine ih _ _ ?_ (by simpa [Ne.symm e] using hx)
      exact Scannable.ceq (fun z hz => S z (by simp [hz])) (CEq.setC hr c i (by omega))

theorem scanBwd_succ (c : Cache) (x : Id) (l : List Id) : ∀ (h : Heap) (i : Nat), Scannable h l → x ∈ l →
    ∃ n, (scanBwd c h x l i).2 = .ok n := by
  induction l with
  | nil => intro h i _ hx; simp at hx
  | cons y ys ih =>
    intro h i S hx
    obtain ⟨r, hr, hf⟩ := S y (by simp)
    simp only [scanBwd, hr, hf]
    by_cases e : y = x
    · simp [e]
    · simp only [Bool.false_eq_true, if_false, if_neg e]
      refine ih _ _ ?_ (by simpa [Ne.symm e] using hx)
      exact Scannable.ceq (fun z hz => S z (by simp [hz])) (CEq.setC hr c i (by omega))

theorem windowFind_ok {l : List Id} {x s m i} (hw : windowFind l x s m = some i) : l[i]? = some x := by
  unfold windowFind at hw
  have := List.find?_some hw
  simpa using this

theorem cachedPos_ceq {c : Cache} {h : Heap} {x : Id} {r : PRef} {l : List Id} (hr : (h.node x).parent = some r) :
    CEq h (cachedPos c h x r l).1 := by
  have slow : CEq h (match windowFind l x (max 0 (r.getC c - 20)).toNat (min (l.length : Int) (r.getC c + 20 + 1)).toNat with
      | some i => if r.frozen then (h, Except.error Err.type) else (h.setParent x (some (r.setC c i)), Except.ok ((i : Int), false))
      | none =>
        let res := if 2 * r.getC c < l.length then scanFwd c h x l 0 else scanBwd c h x l.reverse (l.length - 1)
        (res.1, match res.2 with | .ok i => .ok ((i : Int), true) | .error e => .error e)).1 := by
    split
    · split
      · exact CEq.refl h
      · exact CEq.setC hr c _ (by omega)
    · dsimp only
      split
      · exact scanFwd_ceq _ _ _ _ _
      · exact scanBwd_ceq _ _ _ _ _
  unfold cachedPos
  dsimp only
  split
  · split
    · exact CEq.refl h
    · split
      · exact CEq.refl h
      · exact slow
  · exact slow

theorem pyGet_nonneg {α} {l : List α} {k : Int} {y : α} (hk : 0 ≤ k) (hg : pyGet l k = some y) : l[k.toNat]? = some y := by
  simpa [pyGet, hk] using hg

/-- a position found through the caches is a true position -/
theorem cachedPos_ok {c : Cache} {h : Heap} {x : Id} {r : PRef} {l : List Id} {i b} (hk : 0 ≤ r.getC c)
    (hok : (cachedPos c h x r l).2 = .ok (i, b)) : ∃ n : Nat, i = n ∧ l[n]? = some x := by
  have slow : (match windowFind l x (max 0 (r.getC c - 20)).toNat (min (l.length : Int) (r.getC c + 20 + 1)).toNat with
      | some i => if r.frozen then (h, Except.error Err.type) else (h.setParent x (some (r.setC c i)), Except.ok ((i : Int), false))
      | none =>
        let res := if 2 * r.getC c < l.length then scanFwd c h x l 0 else scanBwd c h x l.reverse (l.length - 1)
        (res.1, match res.2 with | .ok i => .ok ((i : Int), true) | .error e => .error e)).2 = .ok (i, b) →
      ∃ n : Nat, i = n ∧ l[n]? = some x := by
    intro hok
    split at hok
    · next j hw =>
      split at hok
      · simp at hok
      · simp at hok; exact ⟨j, hok.1.symm, windowFind_ok hw⟩
    · dsimp only at hok
      split at hok
      · next j hj =>
        simp at hok
        split at hj
        · obtain ⟨q, h1, h2⟩ := scanFwd_ok _ _ _ _ _ _ hj
          exact ⟨j, hok.1.symm, by rw [h2]; simpa using h1⟩
        · obtain ⟨q, h1, h2⟩ := scanBwd_ok _ _ _ _ _ _ hj
          refine ⟨j, hok.1.symm, ?_⟩
          have hq : q < l.length := by
            have := (List.getElem?_eq_some_iff.1 h1).1; simpa using this
          rw [List.getElem?_reverse hq] at h1
          rw [h2]; exact h1
      · simp at hok
  unfold cachedPos at hok
  dsimp only at hok
  split at hok
  · split at hok
    · simp at hok
    · next y hy =>
      split at hok
      · next e =>
        simp at hok
        refine ⟨(r.getC c).toNat, by rw [← hok.1]; omega, ?_⟩
        rw [pyGet_nonneg hk hy, e]
      · exact slow hok
  · exact slow hok

/-- ... and if all members of the list are proper children, the search always succeeds -/
theorem cachedPos_succ {c : Cache} {h : Heap} {x : Id} {r : PRef} {l : List Id} (hk : 0 ≤ r.getC c) (S : Scannable h l)
    (hf : r.frozen = false) (hx : x ∈ l) : ∃ i b, (cachedPos c h x r l).2 = .ok (i, b) := by
  have slow : ∃ i b, (match windowFind l x (max 0 (r.getC c - 20)).toNat (min (l.length : Int) (r.getC c + 20 + 1)).toNat with
      | some i => if r.frozen then (h, Except.error Err.type) else (h.setParent x (some (r.setC c i)), Except.ok ((i : Int), false))
      | none =>
        let res := if 2 * r.getC c < l.length then scanFwd c h x l 0 else scanBwd c h x l.reverse (l.length - 1)
        (res.1, match res.2 with | .ok i => .ok ((i : Int), true) | .error e => .error e)).2 = .ok (i, b) := by
    split
    · next j hw => simp [hf]
    · dsimp only
      by_cases hc : 2 * r.getC c < l.length
      · obtain ⟨n, hn⟩ := scanFwd_succ c x l h 0 S hx; simp [hn, hc]
      · obtain ⟨n, hn⟩ := scanBwd_succ c x l.reverse h (l.length - 1) (fun y hy => S y (by simpa using hy)) (by simpa using hx)
        simp [hn, hc]
  unfold cachedPos
  dsimp only
  split
  · next hlt =>
    have : ∃ y, pyGet l (r.getC c) = some y := by
      simp only [pyGet, hk, if_true]
      exact ⟨l[(r.getC c).toNat]'(by omega), List.getElem?_eq_getElem (by omega)⟩
    obtain ⟨y, hy⟩ := this
    simp only [hy]
    split
    · exact ⟨_, _, rfl⟩
    · exact slow
  · exact slow

/-! ### `idx` -/

theorem idx_ceq (h : Heap) (x : Id) : CEq h (h.idx x).1 := by
  unfold Heap.idx
  split
  · exact CEq.refl h
  · next r hr => exact cachedPos_ceq hr

/-- specification of `idx`: `none` for an item without parent, the true position otherwise -/
theorem idx_ok {h : Heap} {x : Id} {r : PRef} {i : Option Int} (hr : (h.node x).parent = some r) (h0 : 0 ≤ r.absC)
    (hok : (h.idx x).2 = .ok i) : ∃ n : Nat, i = some (n : Int) ∧ (h.kids r.pid)[n]? = some x := by
  unfold Heap.idx at hok
  simp only [hr] at hok
  split at hok
  · next p hp =>
    obtain ⟨n, h1, h2⟩ := cachedPos_ok (c := .abs) (i := p.1) (b := p.2) h0 hp
    simp at hok
    exact ⟨n, by rw [← hok, h1], h2⟩
  · simp at hok

theorem WF.scannable {h : Heap} (W : WF h) (p : Id) : Scannable h (h.kids p) := fun y hy => by
  obtain ⟨r, h1, _, h3, _⟩ := W.kid_parent p y hy
  exact ⟨r, h1, h3⟩

theorem idx_child {h : Heap} (W : WF h) {p x : Id} (hx : x ∈ h.kids p) :
    ∃ n : Nat, (h.idx x).2 = .ok (some (n : Int)) ∧ (h.kids p)[n]? = some x := by
  obtain ⟨r, h1, h2, h3, h4, h5⟩ := W.kid_parent p x hx
  obtain ⟨i, b, hb⟩ := cachedPos_succ (c := .abs) (h := h) (x := x) (r := r) (l := h.kids r.pid) h4 (h2 ▸ W.scannable p) h3 (by rwa [h2])
  have hi : (h.idx x).2 = .ok (some i) := by unfold Heap.idx; simp only [h1, hb]
  obtain ⟨n, g1, g2⟩ := idx_ok h1 h4 hi
  exact ⟨n, by rw [hi, g1], h2 ▸ g2⟩

end ITree
