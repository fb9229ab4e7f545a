import Verif.Proofs.Climb
/-
Cached positions become true by reading them and stay true while other positions are read.
-/
namespace ITree

/-- the cached position of `x` in the list `l` is the true one -/
def Fresh (c : Cache) (h : Heap) (l : List Id) (x : Id) : Prop :=
  ∃ r, (h.node x).parent = some r ∧ 0 ≤ r.getC c ∧ l[(r.getC c).toNat]? = some x

theorem setC_getC (r : PRef) (c : Cache) (i : Int) : (r.setC c i).getC c = i := by cases c <;> rfl
theorem setC_getC_ne (r : PRef) {c d : Cache} (i : Int) (h : c ≠ d) : (r.setC c i).getC d = r.getC d := by
  cases c <;> cases d <;> first | rfl | exact absurd rfl h

/-- writing the true position -/
theorem Fresh.write {c d : Cache} {h : Heap} {l : List Id} {y z : Id} {r : PRef} {i : Nat} (hr : (h.node y).parent = some r) (ly : List Id)
    (hi : l[i]? = some y) (hz : z = y → d = c → ly = l) (F : Fresh d h ly z) : Fresh d (h.setParent y (some (r.setC c i))) ly z := by
  obtain ⟨r', e1, e2, e3⟩ := F
  by_cases hzy : z = y
  · subst hzy
    rw [hr] at e1
    obtain rfl : r = r' := by simpa using e1
    by_cases hdc : d = c
    · subst hdc
      have := hz rfl rfl
      subst this
      exact ⟨r.setC d i, by simp [node_setParent], by rw [setC_getC]; omega, by rw [setC_getC]; simpa using hi⟩
    · have hcd : c ≠ d := fun e => hdc e.symm
      exact ⟨r.setC c i, by simp [node_setParent], by rw [setC_getC_ne r i hcd]; exact e2, by rw [setC_getC_ne r i hcd]; exact e3⟩
  · exact ⟨r', by simp [node_setParent, hzy, e1], e2, e3⟩

theorem Fresh.made {c : Cache} {h : Heap} {l : List Id} {y : Id} {r : PRef} {i : Nat} (hi : l[i]? = some y) :
    Fresh c (h.setParent y (some (r.setC c i))) l y :=
  ⟨r.setC c i, by simp [node_setParent], by rw [setC_getC]; omega, by rw [setC_getC]; simpa using hi⟩

theorem scanFwd_fresh (c : Cache) (L : List Id) (x : Id) : ∀ (l : List Id) (h : Heap) (i : Nat), (∀ j, l[j]? = L[i + j]?) →
    (∀ d ly z, (z ∈ L → d = c → ly = L) → Fresh d h ly z → Fresh d (scanFwd c h x l i).1 ly z) ∧
    (∀ n, (scanFwd c h x l i).2 = .ok n → Fresh c (scanFwd c h x l i).1 L x) := by
  intro l
  induction l with
  | nil => intro h i _; exact ⟨fun d ly z _ F => F, fun n e => by simp [scanFwd] at e⟩
  | cons y ys ih =>
    intro h i hl
    have hi : L[i]? = some y := by have := hl 0; simpa using this.symm
    have hys : ∀ j, ys[j]? = L[i + 1 + j]? := fun j => by have := hl (j + 1); simp only [List.getElem?_cons_succ] at this; rw [this]; congr 1; omega
    simp only [scanFwd]
    cases hr : (h.node y).parent with
    | none => exact ⟨fun d ly z _ F => F, fun n e => by simp at e⟩
    | some r =>
      simp only
      cases hfz : r.frozen with
      | true => simp only [if_true]; exact ⟨fun d ly z _ F => F, fun n e => by simp at e⟩
      | false =>
        have hstep : ∀ d ly z, (z ∈ L → d = c → ly = L) → Fresh d h ly z → Fresh d (h.setParent y (some (r.setC c i))) ly z :=
          fun d ly z hz F => Fresh.write hr ly hi (fun e => hz (e ▸ List.mem_of_getElem? hi)) F
        by_cases hyx : y = x
        · subst hyx
          simp only [if_true, Bool.false_eq_true, if_false]
          exact ⟨hstep, fun n _ => Fresh.made hi⟩
        · simp only [hyx, Bool.false_eq_true, if_false]
          obtain ⟨a, b⟩ := ih (h.setParent y (some (r.setC c i))) (i + 1) hys
          exact ⟨fun d ly z hz F => a d ly z hz (hstep d ly z hz F), b⟩

theorem scanBwd_fresh (c : Cache) (L : List Id) (x : Id) : ∀ (l : List Id) (h : Heap) (i : Nat), (∀ j, j < l.length → l[j]? = L[i - j]? ∧ j ≤ i) →
    (∀ d ly z, (z ∈ L → d = c → ly = L) → Fresh d h ly z → Fresh d (scanBwd c h x l i).1 ly z) ∧
    (∀ n, (scanBwd c h x l i).2 = .ok n → Fresh c (scanBwd c h x l i).1 L x) := by
  intro l
  induction l with
  | nil => intro h i _; exact ⟨fun d ly z _ F => F, fun n e => by simp [scanBwd] at e⟩
  | cons y ys ih =>
    intro h i hl
    have hi : L[i]? = some y := by have := (hl 0 (by simp)).1; simpa using this.symm
    have hys : ∀ j, j < ys.length → ys[j]? = L[i - 1 - j]? ∧ j ≤ i - 1 := fun j hj => by
      have := hl (j + 1) (by simpa using hj)
      simp only [List.getElem?_cons_succ] at this
      refine ⟨?_, by omega⟩
      rw [this.1]; congr 1; omega
    simp only [scanBwd]
    cases hr : (h.node y).parent with
    | none => exact ⟨fun d ly z _ F => F, fun n e => by simp at e⟩
    | some r =>
      simp only
      cases hfz : r.frozen with
      | true => simp only [if_true]; exact ⟨fun d ly z _ F => F, fun n e => by simp at e⟩
      | false =>
        have hstep : ∀ d ly z, (z ∈ L → d = c → ly = L) → Fresh d h ly z → Fresh d (h.setParent y (some (r.setC c i))) ly z :=
          fun d ly z hz F => Fresh.write hr ly hi (fun e => hz (e ▸ List.mem_of_getElem? hi)) F
        by_cases hyx : y = x
        · subst hyx
          simp only [if_true, Bool.false_eq_true, if_false]
          exact ⟨hstep, fun n _ => Fresh.made hi⟩
        · simp only [hyx, Bool.false_eq_true, if_false]
          obtain ⟨a, b⟩ := ih (h.setParent y (some (r.setC c i))) (i - 1) hys
          exact ⟨fun d ly z hz F => a d ly z hz (hstep d ly z hz F), b⟩

theorem cachedPos_fresh {c : Cache} {h : Heap} {x : Id} {r : PRef} {l : List Id} (hr : (h.node x).parent = some r) (hk : 0 ≤ r.getC c) :
    (∀ d ly z, (z ∈ l → d = c → ly = l) → Fresh d h ly z → Fresh d (cachedPos c h x r l).1 ly z) ∧
    (∀ q, (cachedPos c h x r l).2 = .ok q → Fresh c (cachedPos c h x r l).1 l x) := by
  have slow : ∀ R : Res (Int × Bool), R = (match windowFind l x (max 0 (r.getC c - 20)).toNat (min (l.length : Int) (r.getC c + 20 + 1)).toNat with
      | some i => if r.frozen then (h, Except.error Err.type) else (h.setParent x (some (r.setC c i)), Except.ok ((i : Int), false))
      | none =>
        let res := if 2 * r.getC c < l.length then scanFwd c h x l 0 else scanBwd c h x l.reverse (l.length - 1)
        (res.1, match res.2 with | .ok i => .ok ((i : Int), true) | .error e => .error e)) →
      (∀ d ly z, (z ∈ l → d = c → ly = l) → Fresh d h ly z → Fresh d R.1 ly z) ∧ (∀ q, R.2 = .ok q → Fresh c R.1 l x) := by
    intro R hR
    split at hR
    · next i hw =>
      have hi := windowFind_ok hw
      split at hR
      · subst hR; exact ⟨fun d ly z _ F => F, fun q e => by simp at e⟩
      · subst hR
        exact ⟨fun d ly z hz F => Fresh.write hr ly hi (fun e => hz (e ▸ List.mem_of_getElem? hi)) F, fun q _ => Fresh.made hi⟩
    · dsimp only at hR
      have key : ∀ S : Res Nat, ((∀ d ly z, (z ∈ l → d = c → ly = l) → Fresh d h ly z → Fresh d S.1 ly z) ∧
          (∀ n, S.2 = .ok n → Fresh c S.1 l x)) → R = (S.1, match S.2 with | .ok i => .ok ((i : Int), true) | .error e => .error e) →
          (∀ d ly z, (z ∈ l → d = c → ly = l) → Fresh d h ly z → Fresh d R.1 ly z) ∧ (∀ q, R.2 = .ok q → Fresh c R.1 l x) := by
        rintro ⟨S1, S2⟩ ⟨a, b⟩ rfl
        refine ⟨a, fun q e => ?_⟩
        cases S2 with
        | error => simp at e
        | ok n => exact b n rfl
      refine key _ ?_ hR
      split
      · exact scanFwd_fresh c l x l h 0 (fun j => by simp)
      · refine scanBwd_fresh c l x l.reverse h (l.length - 1) (fun j hj => ?_)
        simp only [List.length_reverse] at hj
        rw [List.getElem?_reverse hj]
        exact ⟨rfl, by omega⟩
  unfold cachedPos
  dsimp only
  split
  · split
    · exact ⟨fun d ly z _ F => F, fun q e => by simp at e⟩
    · next y hy =>
      split
      · next e =>
        subst e
        exact ⟨fun d ly z _ F => F, fun q _ => ⟨r, hr, hk, pyGet_nonneg hk hy⟩⟩
      · exact slow _ rfl
  · exact slow _ rfl

/-- a true cached position is delivered without any scan and without any change -/
theorem cachedPos_of_fresh {c : Cache} {h : Heap} {x : Id} {r : PRef} {l : List Id} (hr : (h.node x).parent = some r) (F : Fresh c h l x) :
    cachedPos c h x r l = (h, .ok (r.getC c, false)) := by
  obtain ⟨r', e1, e2, e3⟩ := F
  rw [hr] at e1
  obtain rfl : r = r' := by simpa using e1
  have hlt := (List.getElem?_eq_some_iff.1 e3).1
  unfold cachedPos
  have : pyGet l (r.getC c) = some x := by simp [pyGet, e2, e3]
  have hlt' : r.getC c < (l.length : Int) := by omega
  simp only [hlt', if_true, this]

/-! ### `tag_idx` -/

/-- the family of an item -/
def FreshFam (h : Heap) (x : Id) : Prop := ∃ p, x ∈ h.kids p ∧ Fresh .fam h (famView h p (h.tag x)) x

theorem tagIdx_eq {h : Heap} (W : WF h) {p x : Id} (hx : x ∈ h.kids p) : ∃ r, (h.node x).parent = some r ∧ r.pid = p ∧ 0 ≤ r.famC ∧
    h.tagIdx x = ((cachedPos .fam h x r (famView h p (h.tag x))).1, match (cachedPos .fam h x r (famView h p (h.tag x))).2 with
      | .ok (i, false) => .ok (.pair (h.tag x) i) | .ok (i, true) => .ok (.bare i) | .error e => .error e) := by
  obtain ⟨r, h1, h2, h3, h4, h5⟩ := W.kid_parent p x hx
  have hne : h.kids p ≠ [] := by intro e; rw [e] at hx; simp at hx
  obtain ⟨F, hb, hf, hO⟩ := W.bound hne
  have hg := hO.get_of_mem hx
  refine ⟨r, h1, h2, h5, ?_⟩
  unfold Heap.tagIdx
  simp only [h1, h2, hb, hg]
  congr 1

theorem tagIdx_makes_fresh {h : Heap} (W : WF h) {p x : Id} (hx : x ∈ h.kids p) : FreshFam (h.tagIdx x).1 x ∧
    ∀ z, FreshFam h z → FreshFam (h.tagIdx x).1 z := by
  obtain ⟨r, h1, h2, h5, e⟩ := tagIdx_eq W hx
  have H := tagIdx_ceq h x
  obtain ⟨a, b⟩ := cachedPos_fresh (c := .fam) (l := famView h p (h.tag x)) h1 h5
  have hS : Scannable h (famView h p (h.tag x)) := fun y hy => W.scannable p y (List.mem_filter.1 hy).1
  have hm : x ∈ famView h p (h.tag x) := List.mem_filter.2 ⟨hx, by simp⟩
  obtain ⟨r', h1', _, h3, _⟩ := W.kid_parent p x hx
  rw [h1] at h1'
  obtain rfl : r = r' := by simpa using h1'
  obtain ⟨i, bb, hi⟩ := cachedPos_succ (c := .fam) (h := h) (x := x) (r := r) h5 hS h3 hm
  have e1 : (h.tagIdx x).1 = (cachedPos .fam h x r (famView h p (h.tag x))).1 := by rw [e]
  constructor
  · refine ⟨p, by rw [H.kids]; exact hx, ?_⟩
    rw [H.famView, H.tag, e1]
    exact b _ hi
  · rintro z ⟨q, hz, F⟩
    refine ⟨q, by rw [H.kids]; exact hz, ?_⟩
    rw [H.famView, H.tag, e1]
    refine a .fam _ z (fun hzl _ => ?_) F
    obtain ⟨hz1, hz2⟩ := List.mem_filter.1 hzl
    have hpq : q = p := by
      have := par_child W hz
      rw [par_child W hz1] at this
      simpa using this.symm
    have : h.tag z = h.tag x := by simpa using hz2
    rw [hpq, this]

theorem tagIdx_of_fresh {h : Heap} (W : WF h) {x : Id} (F : FreshFam h x) : ∃ (p : Id) (m : Nat), x ∈ h.kids p ∧
    (famView h p (h.tag x))[m]? = some x ∧ h.tagIdx x = (h, .ok (.pair (h.tag x) m)) := by
  obtain ⟨p, hx, F⟩ := F
  obtain ⟨r, h1, h2, h5, e⟩ := tagIdx_eq W hx
  rw [cachedPos_of_fresh h1 F] at e
  obtain ⟨r', e1, e2, e3⟩ := F
  rw [h1] at e1
  obtain rfl : r = r' := by simpa using e1
  refine ⟨p, (r.getC .fam).toNat, hx, e3, ?_⟩
  rw [e]
  simp only
  congr 3
  omega

/-- everything on the way up has a true cached family position -/
def FreshChain (h : Heap) (k : Nat) (x : Id) : Prop := ∀ j y, j < k → ancestor h j x = some y → FreshFam h y

theorem tagIdxPathAux_keeps : ∀ (n : Nat) (h : Heap) (x : Id) (acc : List TagIdx) (z : Id), Core h → NoZombie h → FreshFam h z →
    FreshFam (tagIdxPathAux n h x acc).1 z := by
  intro n
  induction n with
  | zero => intro h x acc z _ _ F; exact F
  | succ n ih =>
    intro h x acc z C Z F
    simp only [tagIdxPathAux]
    cases hp : h.par x with
    | none => exact F
    | some p =>
      simp only
      have hx := Z x p hp
      have K := (tagIdx_makes_fresh C.wf hx).2 z F
      have H := tagIdx_ceq h x
      cases (h.tagIdx x).2 with
      | error e => exact K
      | ok i => exact ih _ p _ z (C.ceq H) (H.noZombie Z) K

theorem tagIdxPathAux_freshens : ∀ (k n : Nat) (h : Heap) (x r : Id) (acc : List TagIdx), Core h → NoZombie h → ancestor h k x = some r →
    h.par r = none → k ≤ n → FreshChain (tagIdxPathAux n h x acc).1 k x := by
  intro k
  induction k with
  | zero => intro n h x r acc _ _ _ _ _ j y hj; omega
  | succ k ih =>
    intro n h x r acc C Z e hr hn
    cases n with
    | zero => omega
    | succ n =>
      cases hp : h.par x with
      | none => simp [ancestor, hp] at e
      | some p =>
        have hx := Z x p hp
        obtain ⟨m, hm2, hm1⟩ := tagIdx_child C.wf hx
        have H := tagIdx_ceq h x
        have hel : ∃ ti, (h.tagIdx x).2 = .ok ti := by rcases hm1 with e | e <;> exact ⟨_, e⟩
        obtain ⟨ti, e6⟩ := hel
        have F1 := (tagIdx_makes_fresh C.wf hx).1
        have eq1 : tagIdxPathAux (n + 1) h x acc = tagIdxPathAux n (h.tagIdx x).1 p (ti :: acc) := by simp only [tagIdxPathAux, hp, e6]
        rw [eq1]
        have F2 := ih n (h.tagIdx x).1 p r (ti :: acc) (C.ceq H) (H.noZombie Z) (by rw [H.ancestor]; simpa [ancestor, hp] using e)
          (by rw [H.par']; exact hr) (by omega)
        obtain ⟨h', is, ps, e1, e2, _⟩ := tagIdxPathAux_spec k n (h.tagIdx x).1 p r (ti :: acc) (C.ceq H) (H.noZombie Z)
          (by rw [H.ancestor]; simpa [ancestor, hp] using e) (by rw [H.par']; exact hr) (by omega)
        intro j y hj hy
        cases j with
        | zero =>
          simp [ancestor] at hy; subst hy
          exact tagIdxPathAux_keeps n _ p _ _ (C.ceq H) (H.noZombie Z) F1
        | succ j =>
          refine F2 j y (by omega) ?_
          have hp' : (tagIdxPathAux n (h.tagIdx x).1 p (ti :: acc)).1.par x = some p := by
            rw [e1]; show h'.par x = some p; rw [e2.par', H.par', hp]
          simpa [ancestor, hp'] using hy

/-- with true cached positions the tag path consists of pairs only and nothing is changed by reading it -/
theorem tagIdxPathAux_fresh : ∀ (k n : Nat) (h : Heap) (x r : Id) (acc : List TagIdx), Core h → NoZombie h → ancestor h k x = some r →
    h.par r = none → k ≤ n → FreshChain h k x → ∃ ps : List (Tag × Int), tagIdxPathAux n h x acc = (h, .ok (ps.map (fun q => TagIdx.pair q.1 q.2) ++ acc)) ∧
      ps.length = k ∧ byTagIdx h r ps = .ok x := by
  intro k
  induction k with
  | zero =>
    intro n h x r acc C Z e hr _ _
    simp [ancestor] at e; subst e
    refine ⟨[], ?_, rfl, rfl⟩
    cases n <;> simp [tagIdxPathAux, hr]
  | succ k ih =>
    intro n h x r acc C Z e hr hn F
    cases n with
    | zero => omega
    | succ n =>
      cases hp : h.par x with
      | none => simp [ancestor, hp] at e
      | some p =>
        have hx := Z x p hp
        obtain ⟨q, m, hq, hm, et⟩ := tagIdx_of_fresh C.wf (F 0 x (by omega) rfl)
        have hqp : q = p := by
          have := par_child C.wf hq
          rw [hp] at this; simpa using this.symm
        subst hqp
        have hne : h.kids q ≠ [] := by intro e; rw [e] at hx; simp at hx
        obtain ⟨Fa, hb, hf, hO⟩ := C.wf.bound hne
        have hg := hO.get_of_mem hx
        obtain ⟨ps, e1, e2, e3⟩ := ih n h q r (.pair (h.tag x) m :: acc) C Z (by simpa [ancestor, hp] using e) hr (by omega)
          (fun j y hj hy => F (j + 1) y (by omega) (by simpa [ancestor, hp] using hy))
        refine ⟨ps ++ [(h.tag x, (m : Int))], ?_, by simp [e2], ?_⟩
        · simp only [tagIdxPathAux, hp, et, e1]
          simp
        · rw [byTagIdx_append]
          simp only [e3, byTagIdx, hb, Option.getD_some, hg, pyGet_nat, hm]

end ITree
