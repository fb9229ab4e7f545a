import Verif.Model.Levels
import Verif.Props.Deep
import Verif.Proofs.Rotate
import Mathlib.Data.List.Chain
/-
Helper lemmas for the level iteration.
-/
namespace ITree
variable {ms : ModelSet} {h : Heap}

theorem levelBelow_zero {x y : Id} : LevelBelow h x 0 y ↔ y = x := by
  constructor
  · rintro ⟨l, h1, h2, h3, _⟩
    match l, h1 with
    | [a], _ => simp at h2 h3; rw [← h2, ← h3]
  · rintro rfl
    exact ⟨[y], rfl, rfl, rfl, by simp⟩

theorem levelBelow_succ {x y : Id} {k : Nat} : LevelBelow h x (k + 1) y ↔ ∃ p, LevelBelow h x k p ∧ y ∈ h.kids p := by
  constructor
  · rintro ⟨l, h1, h2, h3, h4⟩
    rcases List.eq_nil_or_concat l with rfl | ⟨l', z, rfl⟩
    · simp at h1
    · simp at h1 h3
      subst h3
      have hne : l' ≠ [] := by intro e; simp [e] at h1
      obtain ⟨m, p, rfl⟩ := (List.eq_nil_or_concat l').resolve_left hne
      simp only [List.concat_eq_append] at *
      rw [List.isChain_append] at h4
      refine ⟨p, ⟨m ++ [p], by simp at h1 ⊢; omega, ?_, by simp, h4.1⟩, h4.2.2 p (by simp) z (by simp)⟩
      rw [List.head?_append] at h2
      cases e : (m ++ [p]).head? with
      | none => simp at e
      | some w => rw [e] at h2; simpa using h2
  · rintro ⟨p, ⟨l, h1, h2, h3, h4⟩, hy⟩
    refine ⟨l ++ [y], by simp [h1], ?_, by simp, ?_⟩
    · rw [List.head?_append, h2]; rfl
    · rw [List.isChain_append]
      refine ⟨h4, by simp, ?_⟩
      intro a ha b hb
      rw [h3] at ha
      simp at ha hb; subst ha; subst hb; exact hy

theorem levelBelow_below {x y : Id} : ∀ {k : Nat}, LevelBelow h x k y → Below h x y := by
  intro k
  induction k generalizing y with
  | zero => intro H; rw [levelBelow_zero] at H; subst H; exact .refl
  | succ k ih => intro H; obtain ⟨p, hp, hy⟩ := levelBelow_succ.1 H; exact .step (ih hp) hy

theorem levelBelow_unique (C : Core h) {x : Id} : ∀ {a b : Nat} {y : Id}, LevelBelow h x a y → LevelBelow h x b y → a = b := by
  intro a
  induction a with
  | zero =>
    intro b y h1 h2
    rw [levelBelow_zero] at h1; subst h1
    cases b with
    | zero => rfl
    | succ b =>
      obtain ⟨p, hp, hy⟩ := levelBelow_succ.1 h2
      exact absurd (levelBelow_below hp) (C.forest.irrefl hy)
  | succ a ih =>
    intro b y h1 h2
    obtain ⟨p, hp, hy⟩ := levelBelow_succ.1 h1
    cases b with
    | zero =>
      rw [levelBelow_zero] at h2; subst h2
      exact absurd (levelBelow_below hp) (C.forest.irrefl hy)
    | succ b =>
      obtain ⟨q, hq, hy'⟩ := levelBelow_succ.1 h2
      have e1 := par_child C.wf hy
      have e2 := par_child C.wf hy'
      rw [e1] at e2; cases e2
      rw [ih hp hq]

/-- one pass upwards -/
theorem levPass_up {o : LOpts} (ho : o.multi = true → o.self = true) (ok : Bool) (x : Id) : ∀ (l S Y : List Id), l.Nodup → (∀ y ∈ l, ∀ z ∈ l, z ∉ h.kids y) → (∀ y ∈ l, y ∉ Y) →
    (levPass true o ok h x l S Y).1 = (if ok then l.filter (fun y => decide (y ∉ S)) else []) ∧
    (∀ z, z ∈ (levPass true o ok h x l S Y).2.1 ↔ z ∈ S ∨ (∃ y ∈ l, y ∈ S ∧ z ∈ h.kids y) ∨ (z ∈ l ∧ h.kids z = [])) ∧
    (∀ z, z ∈ (levPass true o ok h x l S Y).2.2.1 → z ∈ Y ∨ z ∈ l) ∧ (levPass true o ok h x l S Y).2.2.2 = false := by
  intro l
  induction l with
  | nil => intro S Y _ _ _; simp [levPass]
  | cons y ys ih =>
    intro S Y hn hd hY
    rw [List.nodup_cons] at hn
    have hhit : (if o.multi then o.self || y != x else decide (y ∉ Y)) = true := by
      cases hm : o.multi with
      | true => simp [ho hm]
      | false => simpa using hY y (by simp)
    simp only [levPass, hhit, Bool.not_true, Bool.false_and, Bool.and_true, Bool.true_and]
    have hst : ∀ z, z ∈ (if decide (h.kids y = []) = true then y :: (if decide (y ∈ S) = true then h.kids y ++ S else S) else (if decide (y ∈ S) = true then h.kids y ++ S else S)) ↔
        z ∈ S ∨ (y ∈ S ∧ z ∈ h.kids y) ∨ (z = y ∧ h.kids y = []) := by
      intro z
      by_cases h1 : h.kids y = [] <;> by_cases h2 : y ∈ S <;> simp [h1, h2] <;> tauto
    generalize hS2 : (if decide (h.kids y = []) = true then y :: (if decide (y ∈ S) = true then h.kids y ++ S else S) else (if decide (y ∈ S) = true then h.kids y ++ S else S)) = S2 at hst ⊢
    generalize hY2 : (if (!decide (y ∈ S) && ok && !o.multi) = true then y :: Y else Y) = Y2
    have hY2m : ∀ z, z ∈ Y2 → z ∈ Y ∨ z = y := by
      intro z hz; rw [← hY2] at hz; split at hz
      · rcases List.mem_cons.1 hz with h | h
        · exact .inr h
        · exact .inl h
      · exact .inl hz
    obtain ⟨i1, i2, i3, i4⟩ := ih S2 Y2 hn.2 (fun a ha b hb => hd a (by simp [ha]) b (by simp [hb])) (fun a ha hc => by
      rcases hY2m a hc with hc | rfl
      · exact hY a (by simp [ha]) hc
      · exact hn.1 ha)
    have hmem : ∀ a ∈ ys, (a ∈ S2 ↔ a ∈ S) := by
      intro a ha
      rw [hst a]
      constructor
      · rintro (h1 | ⟨_, h2⟩ | ⟨h1, _⟩)
        · exact h1
        · exact absurd h2 (hd y (by simp) a (by simp [ha]))
        · subst h1; exact absurd ha hn.1
      · exact .inl
    refine ⟨?_, ?_, ?_, i4⟩
    · have hf : ys.filter (fun a => decide (a ∉ S2)) = ys.filter (fun a => decide (a ∉ S)) := by
        refine List.filter_congr fun a ha => ?_
        simp [hmem a ha]
      simp only [Bool.false_eq_true, if_false]
      rw [i1, hf]
      cases ok with
      | false => simp
      | true => by_cases h2 : y ∈ S <;> simp [h2]
    · intro z
      simp only [Bool.false_eq_true, if_false]
      rw [i2 z, hst z]
      constructor
      · rintro ((h1 | ⟨h1, h2⟩ | ⟨h1, h2⟩) | ⟨a, ha, h1, h2⟩ | ⟨h1, h2⟩)
        · exact .inl h1
        · exact .inr (.inl ⟨y, by simp, h1, h2⟩)
        · exact .inr (.inr ⟨by simp [h1], by rw [h1]; exact h2⟩)
        · exact .inr (.inl ⟨a, by simp [ha], (hmem a ha).1 h1, h2⟩)
        · exact .inr (.inr ⟨by simp [h1], h2⟩)
      · rintro (h1 | ⟨a, ha, h1, h2⟩ | ⟨h1, h2⟩)
        · exact .inl (.inl h1)
        · rcases List.mem_cons.1 ha with rfl | ha
          · exact .inl (.inr (.inl ⟨h1, h2⟩))
          · exact .inr (.inl ⟨a, ha, (hmem a ha).2 h1, h2⟩)
        · rcases List.mem_cons.1 h1 with rfl | h1
          · exact .inl (.inr (.inr ⟨rfl, h2⟩))
          · exact .inr (.inr ⟨h1, h2⟩)
    · intro z hz
      simp only [Bool.false_eq_true, if_false] at hz
      rcases i3 z hz with h1 | h1
      · rcases hY2m z h1 with h1 | rfl
        · exact .inl h1
        · exact .inr (by simp)
      · exact .inr (by simp [h1])

/-- the levels of the item -/
structure LevelTable (h : Heap) (x : Id) (slf : Bool) (D : Nat) (lv : Nat → List Id) : Prop where
  zero : lv 0 = if slf then [x] else []
  mem : ∀ k y, y ∈ lv (k + 1) ↔ LevelBelow h x (k + 1) y
  nodup : ∀ k, (lv k).Nodup
  deep : ∀ k, D < k → lv k = []
  nonempty : ∀ k, k + 1 ≤ D → lv (k + 1) ≠ []

theorem LevelTable.level {x : Id} {slf : Bool} {D : Nat} {lv : Nat → List Id} (L : LevelTable h x slf D lv) {k : Nat} {y : Id} (hy : y ∈ lv k) : LevelBelow h x k y := by
  cases k with
  | zero =>
    rw [L.zero] at hy
    cases slf <;> simp at hy
    subst hy; exact levelBelow_zero.2 rfl
  | succ k => exact (L.mem k y).1 hy

theorem exists_levelTable (H : Reach ms h) (x : Id) (o : LOpts) : ∃ D lv, Delivers (fun n => maxDepth n h x) D ∧ LevelTable h x o.self D lv ∧
    ∀ k : Nat, Delivers (fun n => siblings n h x k o) (lv k) := by
  obtain ⟨D, d1, ⟨z, hz⟩, d3⟩ := C30_max_depth H x
  have hs : ∀ k : Nat, ∃ l : List Id, Delivers (fun n => siblingsPlus n h x (k + 1) o.rev o.self) l ∧ l.Nodup ∧ ∀ y, y ∈ l ↔ LevelBelow h x (k + 1) y := by
    intro k
    obtain ⟨l, l0, _, e1, e2, _, e4, e5⟩ := C30_siblings H x k o.self
    cases hr : o.rev with
    | false => exact ⟨l, e1, e4, e5⟩
    | true => exact ⟨l.reverse, e2, List.nodup_reverse.2 e4, fun y => by rw [List.mem_reverse]; exact e5 y⟩
  choose L hL1 hL2 hL3 using hs
  refine ⟨D, fun k => match k with | 0 => if o.self then [x] else [] | k + 1 => L k, d1, ⟨rfl, fun k y => hL3 k y, ?_, ?_, ?_⟩, ?_⟩
  · intro k
    cases k with
    | zero => dsimp only; cases o.self <;> simp
    | succ k => exact hL2 k
  · intro k hk
    cases k with
    | zero => omega
    | succ k =>
      dsimp only
      rw [List.eq_nil_iff_forall_not_mem]
      intro y hy
      have := d3 _ _ ((hL3 k y).1 hy)
      omega
  · intro k hk e
    dsimp only at e
    have : ∀ m j, j + m = D → ∃ y, LevelBelow h x j y := by
      intro m
      induction m with
      | zero => intro j hj; simp at hj; subst hj; exact ⟨z, hz⟩
      | succ m ih =>
        intro j hj
        obtain ⟨y, hy⟩ := ih (j + 1) (by omega)
        obtain ⟨p, hp, _⟩ := levelBelow_succ.1 hy
        exact ⟨p, hp⟩
    obtain ⟨y, hy⟩ := this (D - (k + 1)) (k + 1) (by omega)
    have := (hL3 k y).2 hy
    rw [e] at this; simp at this
  · intro k
    have e : ∀ n, siblings n h x k o = siblingsPlus n h x k o.rev o.self := fun n => by simp [siblings]
    simp only [e]
    cases k with
    | zero => exact ⟨0, fun n _ => by simp [siblingsPlus]⟩
    | succ k => exact hL1 k

theorem delivers_upto {f : Nat → Nat → Option (List Id)} {lv : Nat → List Id} (H : ∀ k, Delivers (f k) (lv k)) (M : Nat) : ∃ N, ∀ n, N ≤ n → ∀ k, k ≤ M → f k n = some (lv k) := by
  induction M with
  | zero => obtain ⟨N, hN⟩ := H 0; exact ⟨N, fun n hn k hk => by rw [Nat.le_zero.1 hk]; exact hN n hn⟩
  | succ M ih =>
    obtain ⟨N, hN⟩ := ih
    obtain ⟨N', hN'⟩ := H (M + 1)
    refine ⟨max N N', fun n hn k hk => ?_⟩
    rcases Nat.lt_or_ge k (M + 1) with h1 | h1
    · exact hN n (by omega) k (by omega)
    · have : k = M + 1 := by omega
      subst this; exact hN' n (by omega)

/-- is the level delivered? -/
def keepUp (s : Nat) (e : Option Nat) (st : Nat) (k : Nat) : Bool := decide (s ≤ k) && (match e with | none => true | some e => decide (k < e)) && decide (st ∣ k - s)

/-- the loop invariant about the stop set -/
def StopInv (lv : Nat → List Id) (e : Option Nat) (c : Nat) (S : List Id) : Prop :=
  ∀ k, c ≤ k → ∀ y ∈ lv k, (y ∈ S ↔ match e with | none => False | some e => k = max c e)

theorem levels_loop (C : Core h) {x : Id} {o : LOpts} (ho : o.multi = true → o.self = true) {D : Nat} {lv : Nat → List Id} (L : LevelTable h x o.self D lv) {s : Nat} {e : Option Nat} {st : Nat}
    (hst : 0 < st) (he : ∀ e' ∈ e, 1 ≤ e' ∨ o.self = true) {M n : Nat} (hM : M = max (s + 1) (D + 1)) (hn : ∀ k, k ≤ M → siblings n h x k o = some (lv k)) :
    ∀ (d c : Nat), c + d = M → s ≤ c → ∀ (S Y : List Id), StopInv lv e c S → (∀ k, c ≤ k → ∀ y ∈ lv k, y ∉ Y) → ∀ m, d + 2 ≤ m →
    gen (levStep n h x s st o) m (some ⟨c, decide (st ∣ c - s), true, S, Y⟩) = some (((List.range' c (d + 1)).filter (keepUp s e st)).flatMap lv, .ok none) := by
  intro d
  induction d with
  | zero =>
    intro c hc hs S Y hS hY m hm
    have hcD : D < c := by omega
    have hl : lv c = [] := L.deep c hcD
    have hcs : ¬ ((c : Int) = s) := by omega
    obtain ⟨m, rfl⟩ : ∃ m', m = m' + 2 := ⟨m - 2, by omega⟩
    have hmul : ¬ ((o.multi && !o.self) = true) := by intro hh; simp at hh; simp [ho hh.1] at hh
    have hst' : (0 : Int) < st := by omega
    have hst0 : ¬ st = 0 := by omega
    simp [gen, levStep, hn c (by omega), hl, levPass, hcs, hmul, hst, hst0]
  | succ d ih =>
    intro c hc hs S Y hS hY m hm
    obtain ⟨m, rfl⟩ : ∃ m', m = m' + 1 := ⟨m - 1, by omega⟩
    have hmul : (decide ((0 : Int) < st) && o.multi && !o.self) = false := by
      cases hm : o.multi with
      | false => simp
      | true => simp [ho hm]
    have hst' : (0 : Int) < st := by omega
    have hst0 : ¬ ((st : Int) = 0) := by omega
    have hdis : ∀ y ∈ lv c, ∀ z ∈ lv c, z ∉ h.kids y := by
      intro y hy z hz hk
      have := levelBelow_unique C (L.level hz) (levelBelow_succ.2 ⟨y, L.level hy, hk⟩)
      omega
    obtain ⟨p1, p2, p3, p4⟩ := levPass_up ho (decide (st ∣ c - s)) x (lv c) S Y (L.nodup c) hdis (fun y hy => hY c (Nat.le_refl _) y hy)
    have hout : (levPass true o (decide (st ∣ c - s)) h x (lv c) S Y).1 = if keepUp s e st c then lv c else [] := by
      rw [p1]
      by_cases hd : st ∣ c - s
      · simp only [hd, decide_true, if_true]
        cases e with
        | none =>
          simp only [keepUp, hs, hd, decide_true, Bool.and_self, if_true]
          rw [List.filter_eq_self]
          intro y hy
          have := hS c (Nat.le_refl _) y hy
          simp at this; simp [this]
        | some e =>
          by_cases hce : c < e
          · simp only [keepUp, hs, hce, hd, decide_true, Bool.and_self, if_true]
            rw [List.filter_eq_self]
            intro y hy
            have := hS c (Nat.le_refl _) y hy
            have hne : ¬ c = max c e := by omega
            simp only [hne, iff_false] at this; simp [this]
          · simp only [keepUp, hs, hce, hd, decide_true, decide_false, Bool.and_false, Bool.false_and, Bool.false_eq_true, if_false]
            rw [List.filter_eq_nil_iff]
            intro y hy
            have := hS c (Nat.le_refl _) y hy
            have hne : c = max c e := by omega
            have : y ∈ S := this.2 hne
            simp [this]
      · simp [keepUp, hd]
    have hfound : ((c : Int) == s || !(lv c).isEmpty) = decide (c = s ∨ lv c ≠ []) := by
      have e1 : ((c : Int) == s) = decide (c = s) := by
        by_cases h1 : c = s
        · simp [h1]
        · have : ¬ ((c : Int) = s) := by omega
          simp [h1, this]
      have e2 : (!(lv c).isEmpty) = decide (lv c ≠ []) := by cases lv c <;> simp
      rw [e1, e2, Bool.decide_or]
    have hrange : ((List.range' c (d + 1 + 1)).filter (keepUp s e st)).flatMap lv = (if keepUp s e st c then lv c else []) ++ ((List.range' (c + 1) (d + 1)).filter (keepUp s e st)).flatMap lv := by
      rw [List.range'_succ, List.filter_cons]
      split <;> simp
    have hcast : (decide ((st : Int) ∣ (c : Int) + 1 - s)) = decide (st ∣ c + 1 - s) := by
      have : (c : Int) + 1 - s = ((c + 1 - s : Nat) : Int) := by omega
      rw [this]; simp only [Int.natCast_dvd_natCast]
    have hcast1 : (c : Int) + 1 = ((c + 1 : Nat) : Int) := by omega
    simp only [gen, levStep, hn c (by omega), if_true, hst', decide_true, p4, hfound, hout, hst0, if_false, Bool.not_false, Bool.true_and, hcast, hrange]
    have hmul' : ¬ ((o.multi && !o.self) = true) := by
      have := hmul; simp only [hst', decide_true, Bool.true_and] at this; simp [this]
    rw [if_neg hmul']
    simp only []
    by_cases hf : c = s ∨ lv c ≠ []
    · simp only [hf, decide_true, if_true, hcast1]
      rw [ih (c + 1) (by omega) (by omega) _ _ ?_ ?_ m (by omega)]
      · rfl
      · -- the stop set
        intro k hk y hy
        rw [p2 y]
        have hyc : y ∉ lv c := fun hc' => by have := levelBelow_unique C (L.level hc') (L.level hy); omega
        have hkid : (∃ z ∈ lv c, z ∈ S ∧ y ∈ h.kids z) → k = c + 1 := by
          rintro ⟨z, hz, _, hzk⟩
          exact levelBelow_unique C (L.level hy) (levelBelow_succ.2 ⟨z, L.level hz, hzk⟩)
        have h1 := hS k (by omega) y hy
        cases e with
        | none =>
          simp only [iff_false] at h1 ⊢
          rintro (h2 | ⟨z, hz, hzS, _⟩ | ⟨h2, _⟩)
          · exact h1 h2
          · exact (hS c (Nat.le_refl _) z hz).1 hzS
          · exact hyc h2
        | some e =>
          simp only at h1 ⊢
          by_cases hce : c < e
          · have e1 : max c e = max (c + 1) e := by omega
            rw [← e1, ← h1]
            constructor
            · rintro (h2 | ⟨z, hz, hzS, _⟩ | ⟨h2, _⟩)
              · exact h2
              · have := (hS c (Nat.le_refl _) z hz).1 hzS
                simp only at this; omega
              · exact absurd h2 hyc
            · exact .inl
          · have e1 : max (c + 1) e = c + 1 := by omega
            rw [e1]
            constructor
            · rintro (h2 | h2 | ⟨h2, _⟩)
              · have := h1.1 h2; omega
              · obtain ⟨z, a, b, c'⟩ := h2; exact hkid ⟨z, a, b, c'⟩
              · exact absurd h2 hyc
            · intro hkc
              subst hkc
              obtain ⟨z, hz, hzk⟩ := levelBelow_succ.1 (L.level hy)
              have hzc : z ∈ lv c := by
                cases c with
                | zero =>
                  have he0 := he e rfl
                  have : o.self = true := by
                    rcases he0 with h2 | h2
                    · omega
                    · exact h2
                  rw [L.zero, this]; simp [levelBelow_zero.1 hz]
                | succ c => exact (L.mem c z).2 hz
              exact .inr (.inl ⟨z, hzc, (hS c (Nat.le_refl _) z hzc).2 (by simp only; omega), hzk⟩)
      · intro k hk y hy hc'
        rcases p3 y hc' with h2 | h2
        · exact hY k (by omega) y hy h2
        · have := levelBelow_unique C (L.level h2) (L.level hy); omega
    · simp only [hf, decide_false, Bool.false_eq_true, if_false]
      obtain ⟨m, rfl⟩ : ∃ m', m = m' + 1 := ⟨m - 1, by omega⟩
      have hlc : lv c = [] := by by_contra hne; exact hf (.inr hne)
      have hcs : c ≠ s := fun hc' => hf (.inl hc')
      have hcD : D < c := by
        by_contra hh
        obtain ⟨j, rfl⟩ : ∃ j, c = j + 1 := ⟨c - 1, by omega⟩
        exact L.nonempty j (by omega) hlc
      have hz : ((List.range' (c + 1) (d + 1)).filter (keepUp s e st)).flatMap lv = [] := by
        rw [List.flatMap_eq_nil_iff]
        intro k hk
        have hk := (List.mem_range'_1.1 (List.mem_filter.1 hk).1)
        exact L.deep k (by omega)
      rw [hz]
      simp only [gen, hlc]
      simp [levStep]

theorem keep_range (L : LevelTable h x slf D lv) (s : Nat) (e : Option Nat) (st : Nat) {M : Nat} (hM : D < M) :
    ((List.range' s (M - s + 1)).filter (keepUp s e st)).flatMap lv = ((List.range (D + 1)).filter (keepUp s e st)).flatMap lv := by
  have hz : ∀ a b, D < a → ((List.range' a b).filter (keepUp s e st)).flatMap lv = [] := by
    intro a b hab
    rw [List.flatMap_eq_nil_iff]
    intro k hk
    have hk := (List.mem_range'_1.1 (List.mem_filter.1 hk).1)
    exact L.deep k (by omega)
  rcases Nat.lt_or_ge D s with h1 | h1
  · rw [hz _ _ h1]
    symm
    rw [List.flatMap_eq_nil_iff]
    intro k hk
    have hk := List.mem_filter.1 hk
    have h2 := List.mem_range.1 hk.1
    have h3 := hk.2
    simp only [keepUp, Bool.and_eq_true, decide_eq_true_eq] at h3
    omega
  · have h2 : List.range (D + 1) = List.range' 0 s ++ List.range' s (D + 1 - s) := by
      rw [List.range_eq_range']
      have := @List.range'_append 0 s (D + 1 - s) 1
      simp at this
      rw [this]; congr 1; omega
    have h3 : List.range' s (M - s + 1) = List.range' s (D + 1 - s) ++ List.range' (D + 1) (M - D) := by
      have := @List.range'_append s (D + 1 - s) (M - D) 1
      rw [show s + 1 * (D + 1 - s) = D + 1 by omega] at this
      rw [this]; congr 1; omega
    have h4 : (List.range' 0 s).filter (keepUp s e st) = [] := by
      rw [List.filter_eq_nil_iff]
      intro k hk
      have := List.mem_range'_1.1 hk
      simp [keepUp, show ¬ s ≤ k by omega]
    rw [h2, h3, List.filter_append, List.filter_append, List.flatMap_append, List.flatMap_append, hz (D + 1) _ (by omega), h4, List.append_nil, List.flatMap_nil, List.nil_append]

end ITree

namespace ITree
variable {h : Heap}

/-- one pass downwards without stop set -/
theorem levPass_down {o : LOpts} (hm : o.multi = false) (ok : Bool) {x : Id} : ∀ (l Y : List Id), l.Nodup → x ∉ l → (∀ y ∈ l, y ∉ Y) →
    (levPass false o ok h x l [] Y).1 = (if ok then l else []) ∧ (levPass false o ok h x l [] Y).2.1 = [] ∧
    (∀ z, z ∈ (levPass false o ok h x l [] Y).2.2.1 → z ∈ Y ∨ z ∈ l) ∧ (levPass false o ok h x l [] Y).2.2.2 = false := by
  intro l
  induction l with
  | nil => intro Y _ _ _; simp [levPass]
  | cons y ys ih =>
    intro Y hn hx hY
    rw [List.nodup_cons] at hn
    simp only [List.mem_cons, not_or] at hx
    have hyx : (y == x) = false := by simpa using Ne.symm hx.1
    have hyY : y ∉ Y := hY y (by simp)
    simp only [levPass, hm, hyx, hyY, Bool.not_false, Bool.true_and, Bool.and_true, Bool.false_eq_true, if_false, List.not_mem_nil, decide_false, not_false_eq_true, decide_true, Bool.false_and]
    obtain ⟨i1, i2, i3, i4⟩ := ih (if ok = true then y :: Y else Y) hn.2 hx.2 (fun a ha hc => by
      split at hc
      · rcases List.mem_cons.1 hc with rfl | hc
        · exact hn.1 ha
        · exact hY a (by simp [ha]) hc
      · exact hY a (by simp [ha]) hc)
    refine ⟨?_, i2, ?_, i4⟩
    · rw [i1]; cases ok <;> simp
    · intro z hz
      rcases i3 z hz with h1 | h1
      · split at h1
        · rcases List.mem_cons.1 h1 with rfl | h1
          · exact .inr (by simp)
          · exact .inl h1
        · exact .inl h1
      · exact .inr (by simp [h1])

theorem levels_loop_down (C : Core h) {x : Id} {o : LOpts} (hmul : o.multi = false) {D : Nat} {lv : Nat → List Id} (L : LevelTable h x o.self D lv) {s st : Nat}
    (hst : 0 < st) (hs1 : 1 ≤ s) (hsD : s ≤ D + 1) {n : Nat} (hn : ∀ k, k ≤ s → siblings n h x k o = some (lv k)) :
    ∀ (c : Nat), c ≤ s → ∀ (Y : List Id), (∀ k, k ≤ c → ∀ y ∈ lv k, y ∉ Y) → ∀ m, c + 2 ≤ m →
    gen (levStep n h x s (-(st : Int)) o) m (some ⟨c, decide (st ∣ s - c), true, [], Y⟩) =
      some (((List.range (c + 1)).reverse.filter fun k => decide (st ∣ s - k)).flatMap lv, .ok none) := by
  have hneg : ¬ ((0 : Int) < -(st : Int)) := by omega
  have hne : ¬ (-(st : Int) = 0) := by omega
  intro c
  induction c with
  | zero =>
    intro hc Y hY m hm
    obtain ⟨m, rfl⟩ : ∃ m', m = m' + 2 := ⟨m - 2, by omega⟩
    have hcs : ¬ ((0 : Int) = s) := by omega
    have hl0 := L.zero
    have h0 := hn 0 (by omega)
    simp only [Int.natCast_zero] at h0
    cases hse : o.self with
    | false =>
      rw [hse] at hl0
      simp only [Bool.false_eq_true, if_false] at hl0
      rw [hl0] at h0
      simp [gen, levStep, h0, levPass, hcs, hneg, hne, List.filter_cons, hl0]
    | true =>
      rw [hse] at hl0
      simp only [if_true] at hl0
      have hx : x ∉ Y := hY 0 (Nat.le_refl _) x (by simp [hl0])
      rw [hl0] at h0
      by_cases hd : st ∣ s
      · simp [gen, levStep, h0, levPass, hneg, hne, hmul, hx, hd, hl0, List.filter_cons]
      · simp [gen, levStep, h0, levPass, hneg, hne, hmul, hx, hd, hl0, List.filter_cons]
  | succ c ih =>
    intro hc Y hY m hm
    obtain ⟨m, rfl⟩ : ∃ m', m = m' + 1 := ⟨m - 1, by omega⟩
    have hx : x ∉ lv (c + 1) := fun hx => by
      have := levelBelow_unique C (L.level hx) (levelBelow_zero.2 rfl); omega
    obtain ⟨p1, p2, p3, p4⟩ := levPass_down (h := h) hmul (decide (st ∣ s - (c + 1))) (lv (c + 1)) Y (L.nodup _) hx (fun y hy => hY _ (Nat.le_refl _) y hy)
    have hfound : (((c + 1 : Nat) : Int) == s || !(lv (c + 1)).isEmpty) = true := by
      rcases Nat.lt_or_ge D (c + 1) with h1 | h1
      · have : c + 1 = s := by omega
        rw [this]; simp
      · have := L.nonempty c h1
        cases hl : lv (c + 1) with
        | nil => exact absurd hl this
        | cons a b => simp
    have hrange : ((List.range (c + 1 + 1)).reverse.filter fun k => decide (st ∣ s - k)).flatMap lv =
        (if decide (st ∣ s - (c + 1)) then lv (c + 1) else []) ++ ((List.range (c + 1)).reverse.filter fun k => decide (st ∣ s - k)).flatMap lv := by
      rw [List.range_succ, List.reverse_append, List.reverse_singleton, List.singleton_append, List.filter_cons]
      split <;> simp
    have hcast : ((c + 1 : Nat) : Int) - 1 = (c : Int) := by omega
    have hdv : decide (-(st : Int) ∣ (c : Int) - s) = decide (st ∣ s - c) := by
      have : (c : Int) - s = -((s - c : Nat) : Int) := by omega
      rw [this]
      simp only [Int.neg_dvd, Int.dvd_neg, Int.natCast_dvd_natCast]
    simp only [gen, levStep, hn (c + 1) hc, if_true, hneg, decide_false, Bool.false_and, Bool.false_eq_true, if_false, hne, p1, p2, p4, hfound, Bool.not_false, Bool.true_and, hcast, hdv, hrange]
    rw [ih (by omega) _ (fun k hk y hy hc' => by
      rcases p3 y hc' with h2 | h2
      · exact hY k (by omega) y hy h2
      · have := levelBelow_unique C (L.level h2) (L.level hy); omega) m (by omega)]
    rfl

end ITree
