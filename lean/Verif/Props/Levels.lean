import Verif.Proofs.Levels
import Verif.Props.Enumerate
/-
C61: iteration level by level; C62: bottom-up level queries; C58: size comparisons of `deep`; C44: families in depth.
-/
namespace ITree
variable {ms : ModelSet} {h : Heap}

/-! ### C61 -/

theorem wanted_eq (s : Nat) (e : Option Nat) (st : Nat) : (fun k => decide (s ≤ k ∧ (∀ e' ∈ e, k < e') ∧ st ∣ k - s)) = keepUp s e st := by
  funext k
  rw [Bool.eq_iff_iff]
  cases e <;> simp [keepUp, and_assoc]

/-- C61. `deep.levels(slice(s, e, st))` with `0 ≤ s ≤ e` (or no end) and `st ≥ 1` delivers the levels `s, s + st, …` before `e`, one after the other, each as `deep.siblings` delivers it.
Excluded: MULTIPLE without SELF, see `C61_multiple_wrong`; `e = 0` without SELF and `s > e`, see `C61_stop_wrong`; all three `None`, see `C61_none_wrong`. -/
theorem C61_levels_partial (H : Reach ms h) (x : Id) (o : LOpts) (ho : o.multi = true → o.self = true) (s : Nat) (e : Option Nat) (st : Nat) (hst : 0 < st)
    (he : ∀ e' ∈ e, s ≤ e' ∧ (1 ≤ e' ∨ o.self = true)) : ∃ D lv, Delivers (fun n => maxDepth n h x) D ∧ (∀ k : Nat, Delivers (fun n => siblings n h x k o) (lv k)) ∧
    Delivers (fun n => levelsSlice n h x ⟨some s, e.map Int.ofNat, some st⟩ o)
      (((List.range (D + 1)).filter fun k => s ≤ k ∧ (∀ e' ∈ e, k < e') ∧ st ∣ k - s).flatMap lv) := by
  obtain ⟨D, lv, hD, L, hd⟩ := exists_levelTable H x o
  refine ⟨D, lv, hD, hd, ?_⟩
  let M := max (s + 1) (D + 1)
  obtain ⟨N, hN⟩ := delivers_upto (f := fun k n => siblings n h x k o) hd M
  obtain ⟨N', hN'⟩ : ∃ N', ∀ n, N' ≤ n → stopItems n h x o (e.map Int.ofNat) = some (e.elim [] lv) := by
    cases e with
    | none => exact ⟨0, fun _ _ => rfl⟩
    | some e => obtain ⟨N', hN'⟩ := hd e; exact ⟨N', fun n hn => hN' n hn⟩
  refine ⟨max (max N N') (M - s + 2), fun n hn => ?_⟩
  rw [wanted_eq, ← keep_range L s e st (M := M) (by omega)]
  have hstate : decide (st ∣ s - s) = true := by simp
  have := levels_loop H.core ho L hst (fun e' he' => (he e' he').2) rfl (fun k hk => hN n (by omega) k hk) (M - s) s (by omega) (Nat.le_refl _)
    (e.elim [] lv) (if o.multi || o.self then [] else [x]) ?_ ?_ n (by omega)
  · rw [hstate] at this
    simp only [levelsSlice, Option.getD_some, reduceCtorEq, false_and, if_false]
    rw [hN' n (by omega)]
    simp only [this, Option.map_some]
  · intro k hk y hy
    cases e with
    | none => simp
    | some e =>
      simp only [Option.elim_some]
      have hse := (he e rfl).1
      have e1 : max s e = e := by omega
      simp only [e1]
      constructor
      · intro hy'; exact levelBelow_unique H.core (L.level hy) (L.level hy')
      · rintro rfl; exact hy
  · intro k hk y hy
    split
    · simp
    · next hso =>
      simp only [Bool.or_eq_true, not_or, Bool.not_eq_true] at hso
      cases k with
      | zero => rw [L.zero, hso.2] at hy; simp at hy
      | succ k =>
        simp only [List.mem_singleton]
        rintro rfl
        have := levelBelow_unique H.core (L.level hy) (levelBelow_zero.2 rfl)
        omega

/-- C61. the items delivered: exactly those in the wanted levels, none twice -/
theorem C61_levels_items_partial (H : Reach ms h) (x : Id) (o : LOpts) (ho : o.multi = true → o.self = true) (s : Nat) (e : Option Nat) (st : Nat) (hst : 0 < st)
    (he : ∀ e' ∈ e, s ≤ e' ∧ (1 ≤ e' ∨ o.self = true)) : ∃ l, Delivers (fun n => levelsSlice n h x ⟨some s, e.map Int.ofNat, some st⟩ o) l ∧ l.Nodup ∧
    ∀ y, y ∈ l ↔ ∃ k, LevelBelow h x k y ∧ (k = 0 → o.self = true) ∧ s ≤ k ∧ (∀ e' ∈ e, k < e') ∧ st ∣ k - s := by
  obtain ⟨D, lv, hD, hd, hl⟩ := C61_levels_partial H x o ho s e st hst he
  obtain ⟨D', lv', hD', L, hd'⟩ := exists_levelTable H x o
  have e1 : D' = D := hD'.unique hD
  have e2 : lv' = lv := funext fun k => (hd' k).unique (hd k)
  subst e1 e2
  refine ⟨_, hl, ?_, ?_⟩
  · rw [List.nodup_flatMap]
    refine ⟨fun k _ => L.nodup k, ?_⟩
    refine List.Pairwise.imp ?_ (List.nodup_range.filter _)
    intro a b hab y hya hyb
    exact hab (levelBelow_unique H.core (L.level hya) (L.level hyb))
  · intro y
    rw [List.mem_flatMap]
    constructor
    · rintro ⟨k, hk, hy⟩
      have hk := List.mem_filter.1 hk
      refine ⟨k, L.level hy, ?_, by simpa using hk.2⟩
      rintro rfl
      rw [L.zero] at hy
      cases hs : o.self
      · rw [hs] at hy; simp at hy
      · rfl
    · rintro ⟨k, h1, h2, h3⟩
      have hy : y ∈ lv' k := by
        cases k with
        | zero => rw [L.zero, h2 rfl, levelBelow_zero.1 h1]; simp
        | succ k => exact (L.mem k y).2 h1
      refine ⟨k, List.mem_filter.2 ⟨?_, by simpa using h3⟩, hy⟩
      rw [List.mem_range]
      by_contra hc
      rw [L.deep k (by omega)] at hy
      simp at hy

example : levelsSlice 40 demo 0 ⟨some 0, none, some 1⟩ { self := true } = some [0, 1, 2, 3, 5, 4] ∧ levelsSlice 40 demo 0 ⟨some 0, some 2, some 1⟩ {} = some [1, 2, 3, 5] ∧
    levelsSlice 40 demo 0 ⟨some 0, none, some 2⟩ { self := true, rev := true } = some [0, 4] ∧ levelsSlice 40 demo 0 ⟨some 1, some 3, some 1⟩ { rev := true } = some [5, 3, 2, 1, 4] := by
  decide +kernel
example : ∃ l, Delivers (fun n => levelsSlice n demo 0 ⟨some 1, some 2, some 1⟩ {}) l ∧ l.Nodup ∧
    ∀ y, y ∈ l ↔ ∃ k, LevelBelow demo 0 k y ∧ (k = 0 → false = true) ∧ 1 ≤ k ∧ (∀ e' ∈ some 2, k < e') ∧ 1 ∣ k - 1 :=
  C61_levels_items_partial demo_tidy.reach 0 {} (by simp) 1 (some 2) 1 (by omega) (by simp)

/-- C61. `deep.levels(slice(s, None, -st))` without MULTIPLE and with `1 ≤ s ≤` depth + 1 delivers the levels `s, s - st, …` down to 0 (which is the item itself with SELF, and empty
without).  A larger start: `C61_down_wrong`. -/
theorem C61_levels_down_partial (H : Reach ms h) (x : Id) (o : LOpts) (ho : o.multi = false) (s st : Nat) (hst : 0 < st) (hs : 1 ≤ s) :
    ∃ D lv, Delivers (fun n => maxDepth n h x) D ∧ (∀ k : Nat, Delivers (fun n => siblings n h x k o) (lv k)) ∧
    (s ≤ D + 1 → Delivers (fun n => levelsSlice n h x ⟨some s, none, some (-(st : Int))⟩ o) (((List.range (s + 1)).reverse.filter fun k => st ∣ s - k).flatMap lv)) := by
  obtain ⟨D, lv, hD, L, hd⟩ := exists_levelTable H x o
  refine ⟨D, lv, hD, hd, fun hsD => ?_⟩
  obtain ⟨N, hN⟩ := delivers_upto (f := fun k n => siblings n h x k o) hd s
  refine ⟨max N (s + 2), fun n hn => ?_⟩
  have := levels_loop_down H.core ho L hst hs hsD (fun k hk => hN n (by omega) k hk) s (Nat.le_refl _) (if o.multi || o.self then [] else [x]) ?_ n (by omega)
  · have hstate : decide (st ∣ s - s) = true := by simp
    rw [hstate] at this
    simp only [levelsSlice, Option.getD_some, reduceCtorEq, false_and, if_false, stopItems, this, Option.map_some]
  · intro k hk y hy
    split
    · simp
    · next hso =>
      simp only [Bool.or_eq_true, not_or, Bool.not_eq_true] at hso
      cases k with
      | zero => rw [L.zero, hso.2] at hy; simp at hy
      | succ k =>
        simp only [List.mem_singleton]
        rintro rfl
        have := levelBelow_unique H.core (L.level hy) (levelBelow_zero.2 rfl)
        omega

example : levelsSlice 40 demo 0 ⟨some 2, none, some (-1)⟩ { self := true } = some [4, 1, 2, 3, 5, 0] ∧ levelsSlice 40 demo 0 ⟨some 3, none, some (-2)⟩ {} = some [1, 2, 3, 5] := by decide +kernel

/-- C61, the code against the expectation: starting two levels below the deepest one the iteration downwards ends at once. -/
theorem C61_down_wrong : levelsSlice 40 demo 0 ⟨some 4, none, some (-1)⟩ {} = some [] ∧ levelsSlice 40 demo 0 ⟨some 3, none, some (-1)⟩ {} = some [4, 1, 2, 3, 5] := by decide +kernel

theorem levPass_up_left (o : LOpts) (ok : Bool) (h : Heap) (x : Id) : ∀ l S Y, (levPass true o ok h x l S Y).2.2.2 = false := by
  intro l
  induction l with
  | nil => intro S Y; rfl
  | cons y ys ih => intro S Y; simp only [levPass, Bool.not_true, Bool.false_and, Bool.false_eq_true, if_false]; exact ih _ _

/-- C61, the code against the expectation: with MULTIPLE and without SELF the generator never ends (for every tree, every start, end and positive step). -/
theorem C61_multiple_wrong (h : Heap) (x : Id) (start stop : Option Int) (step : Int) (hs : 0 < step) (rev : Bool) (n : Nat) :
    levelsSlice n h x ⟨start, stop, some step⟩ ⟨rev, false, true⟩ = none := by
  have loop : ∀ (m : Nat) (s : LevSt), s.cnt = start.getD 0 → gen (levStep n h x (start.getD 0) step ⟨rev, false, true⟩) m (some s) = none := by
    intro m
    induction m with
    | zero => intro s _; rfl
    | succ m ih =>
      intro s hc
      simp only [gen, levStep]
      cases siblings n h x s.cnt ⟨rev, false, true⟩ with
      | none => simp [ih s hc]
      | some l =>
        simp only [hs, decide_true, Bool.true_and, Bool.not_false, if_true, levPass_up_left, hc, beq_self_eq_true, Bool.true_or]
        rw [ih _ (by simp [hc])]
        rfl
  simp only [levelsSlice, reduceCtorEq, and_false, if_false, Option.getD_some]
  split
  · rfl
  · rw [loop _ _ rfl]; rfl

/-- C61, the code against the expectation: an end before the start, and the end 0 without SELF, do not stop the iteration; with a negative step the levels beyond the end are delivered. -/
theorem C61_stop_wrong : levelsSlice 40 demo 0 ⟨some 2, some 1, some 1⟩ {} = some [4] ∧ levelsSlice 40 demo 0 ⟨some 0, some 0, some 1⟩ {} = some [1, 2, 3, 5, 4] ∧
    levelsSlice 40 demo 0 ⟨some 2, some 1, some (-1)⟩ { self := true } = some [4, 0] := by decide +kernel

/-- C61, the code against the expectation: `levels(slice(None))` delivers nothing, `levels(slice(0, None))` everything below. -/
theorem C61_none_wrong (n : Nat) (h : Heap) (x : Id) (o : LOpts) : levelsSlice n h x ⟨none, none, none⟩ o = some [] ∧
    levelsSlice 40 demo 0 ⟨some 0, none, none⟩ {} = some [1, 2, 3, 5, 4] := ⟨by simp [levelsSlice], by decide +kernel⟩

theorem levelsVia_plain (n : Nat) (h : Heap) (x : Id) (o : LOpts) (lv : Int → List Id) : ∀ (ls : List Int), 0 ∉ ls → (∀ k ∈ ls, siblings n h x k o = some (lv k)) →
    levelsVia n h x o ls (-1) none = some (ls.flatMap lv) := by
  intro ls
  induction ls with
  | nil => intro _ _; simp [levelsVia, levelsVia.flush]
  | cons k ls ih =>
    intro h0 hs
    have hk : ¬ ((-1 : Int) + 1 = k) := by intro e; exact h0 (by simp [← e])
    rw [levelsVia, if_neg hk, hs k (by simp), ih (fun e => h0 (by simp [e])) fun j hj => hs j (by simp [hj])]
    simp [levelsVia.flush]

/-- the list without the repetitions of earlier elements -/
def noRepeat : List Id → List Id
  | [] => []
  | y :: ys => y :: (noRepeat ys).filter (· ≠ y)

theorem firsts_eq : ∀ (l seen : List Id), firsts l seen = (noRepeat l).filter (· ∉ seen) := by
  intro l
  induction l with
  | nil => intro seen; simp [firsts, noRepeat]
  | cons y ys ih =>
    intro seen
    simp only [firsts, noRepeat]
    by_cases hy : y ∈ seen
    · rw [if_pos hy, ih, List.filter_cons_of_neg (by simpa using hy), List.filter_filter]
      refine List.filter_congr fun z hz => ?_
      by_cases hz' : z = y
      · subst hz'; simp [hy]
      · simp [hz']
    · rw [if_neg hy, ih, List.filter_cons_of_pos (by simpa using hy), List.filter_filter]
      congr 1
      refine List.filter_congr fun z hz => ?_
      simp only [List.mem_cons, not_or, ne_eq, Bool.decide_and, decide_not]
      rw [Bool.and_comm]

/-- C61. `deep.levels([k1, k2, …])` with levels other than 0 (negative ones too): the levels in the given order, each as `deep.siblings` delivers it, without items delivered before (with
MULTIPLE: with them). -/
theorem C61_level_list_partial (h : Heap) (x : Id) (o : LOpts) (ls : List Int) (h0 : 0 ∉ ls) (lv : Int → List Id) (hs : ∀ k ∈ ls, Delivers (fun n => siblings n h x k o) (lv k)) :
    Delivers (fun n => levelsList n h x ls o) (if o.multi then ls.flatMap lv else noRepeat (ls.flatMap lv)) := by
  have : ∃ N, ∀ n, N ≤ n → ∀ k ∈ ls, siblings n h x k o = some (lv k) := by
    clear h0
    induction ls with
    | nil => exact ⟨0, by simp⟩
    | cons k ls ih =>
      obtain ⟨N, hN⟩ := ih fun j hj => hs j (by simp [hj])
      obtain ⟨N', hN'⟩ := hs k (by simp)
      refine ⟨max N N', fun n hn j hj => ?_⟩
      rcases List.mem_cons.1 hj with rfl | hj
      · exact hN' n (by omega)
      · exact hN n (by omega) j hj
  obtain ⟨N, hN⟩ := this
  refine ⟨N, fun n hn => ?_⟩
  show (levelsVia n h x o ls (-1) none).map _ = _
  rw [levelsVia_plain n h x o lv ls h0 (hN n hn), Option.map_some, firsts_eq]
  simp

example : levelsList 40 demo 0 [2, 1, -1] {} = some [4, 1, 2, 3, 5] ∧ levelsList 40 demo 0 [2, -1] { multi := true } = some [4, 4, 2, 3, 5] := by decide +kernel
example : ∃ l, Delivers (fun n => levelsList n demo 0 [2, 1] {}) l := by
  obtain ⟨D, lv, _, _, hd⟩ := exists_levelTable demo_tidy.reach 0 {}
  exact ⟨_, C61_level_list_partial demo 0 {} [2, 1] (by decide) (fun k => lv k.toNat) (by
    intro k hk
    simp only [List.mem_cons, List.not_mem_nil, or_false] at hk
    rcases hk with rfl | rfl
    · exact hd 2
    · exact hd 1)⟩

/-- C61, the code against the expectation: a list that begins with 0, 1, … loses its last level, and the options are ignored. -/
theorem C61_level_list_wrong : levelsList 40 demo 0 [0, 1, 2] {} = some [1, 2, 3, 5] ∧ siblings 40 demo 0 2 {} = some [4] ∧ levelsList 40 demo 0 [0, 1] { self := true } = some [] ∧
    siblings 40 demo 0 0 { self := true } = some [0] := by decide +kernel

theorem noRepeat_nodup : ∀ {l : List Id}, l.Nodup → noRepeat l = l := by
  intro l
  induction l with
  | nil => intro _; rfl
  | cons y ys ih =>
    intro nd
    obtain ⟨h1, h2⟩ := List.nodup_cons.1 nd
    rw [noRepeat, ih h2, List.filter_eq_self.2 fun z hz => by simpa using fun e : z = y => h1 (e ▸ hz)]

theorem levelsVia_run (n : Nat) (h : Heap) (x : Id) (o : LOpts) : ∀ (j i : Nat), levelsVia n h x o ((List.range' (i + 1) j).map Int.ofNat) i (some 0) = levelsVia.flush n h x o (i + j : Nat) (some 0) := by
  intro j
  induction j with
  | zero => intro i; simp [levelsVia]
  | succ j ih =>
    intro i
    have := ih (i + 1)
    simp only [List.range'_succ, List.map_cons, levelsVia]
    rw [if_pos (by simp)]
    simp only [Option.getD_some]
    have e : ((i + 1 : Nat) : Int) = Int.ofNat (i + 1) := rfl
    rw [e] at this
    rw [this, show i + 1 + j = i + (j + 1) by omega]

/-- C61, the code against the expectation, for every tree: `deep.levels([0, 1, …, k])` with `k ≥ 1` delivers the levels up to `k - 1` and never an item of level `k`; the item itself is never delivered, whatever the options. -/
theorem C61_level_list_zero_wrong (H : Reach ms h) (x : Id) (o : LOpts) (k : Nat) (hk : 1 ≤ k) : ∃ D lv, Delivers (fun n => maxDepth n h x) D ∧ (∀ k : Nat, Delivers (fun n => siblings n h x k {}) (lv k)) ∧
    ∃ l, l = ((List.range (D + 1)).filter fun i => i < k).flatMap lv ∧ Delivers (fun n => levelsList n h x ((List.range (k + 1)).map Int.ofNat) o) l ∧
    ∀ y, y ∈ l ↔ ∃ i, LevelBelow h x i y ∧ 1 ≤ i ∧ i < k := by
  obtain ⟨D, lv, hD, hd, hl⟩ := C61_levels_partial H x {} (by simp) 0 (some k) 1 (by omega) (by simp [hk])
  obtain ⟨l, hl', nd, hm⟩ := C61_levels_items_partial H x {} (by simp) 0 (some k) 1 (by omega) (by simp [hk])
  have e : ((List.range (D + 1)).filter fun i => 0 ≤ i ∧ (∀ e' ∈ some k, i < e') ∧ 1 ∣ i - 0) = (List.range (D + 1)).filter fun i => i < k := by
    refine List.filter_congr fun i _ => decide_eq_decide.2 ?_
    simp
  rw [e] at hl
  have el := hl'.unique hl
  refine ⟨D, lv, hD, hd, _, rfl, ?_, ?_⟩
  · obtain ⟨N, hN⟩ := hl
    refine ⟨N, fun n hn => ?_⟩
    have hz : levelsVia n h x o ((List.range (k + 1)).map Int.ofNat) (-1) none = levelsSlice n h x ⟨some (0 : Nat), some (k : Int), some 1⟩ {} := by
      rw [List.range_eq_range', List.range'_succ, List.map_cons, levelsVia, if_pos (by simp)]
      have := levelsVia_run n h x o k 0
      simp only [Option.getD_none]
      rw [show (Int.ofNat 0 : Int) = ((0 : Nat) : Int) from rfl, show some ((0 : Nat) : Int) = some 0 from rfl, this]
      simp only [levelsVia.flush, Nat.zero_add]
      rw [if_neg (by omega), if_pos (by omega)]
    show (levelsVia n h x o ((List.range (k + 1)).map Int.ofNat) (-1) none).map _ = _
    have := hN n hn
    simp only [Option.map_some] at this
    rw [hz]
    refine (congrArg _ this).trans ?_
    rw [Option.map_some, firsts_eq]
    rw [← el]
    split
    · rfl
    · simp [noRepeat_nodup nd]
  · intro y
    rw [← el, hm y]
    constructor
    · rintro ⟨i, hb, h0, _, h1, _⟩
      exact ⟨i, hb, (Nat.eq_zero_or_pos i).elim (fun e => by simp [e] at h0) id, h1 k rfl⟩
    · rintro ⟨i, hb, h0, h1⟩
      exact ⟨i, hb, by omega, by omega, by simpa using h1, by simp⟩

example : levelsList 40 demo 0 [0, 1, 2] {} = some [1, 2, 3, 5] ∧ LevelBelow demo 0 2 4 ∧ 4 ∉ [1, 2, 3, 5] :=
  ⟨by decide +kernel, ⟨[0, 1, 4], by decide +kernel⟩, by decide⟩

/-! ### C62 -/

/-- C62, the code against the expectation: the bottom-up level queries raise AttributeError for every item with children (and two of them for every item): they use the option `ITER.INNER`, which does not exist. -/
theorem C62_bottom_up_wrong (n : Nat) (h : Heap) (x : Id) (t : Int) (equal any : Bool) : negativeLevels n h x = some (.error .attribute) ∧ equalNegativeLevel n h x t = some (.error .attribute) ∧
    (h.kids x ≠ [] → inNegativeLevel n h x t equal any = some (.error .attribute)) := by
  have : iterAttr "INNER" = .error .attribute := by decide
  refine ⟨by simp [negativeLevels, this], by simp [equalNegativeLevel, this], fun hk => by simp [inNegativeLevel, this, hk]⟩

/-- C62. for an item without children `in_negative_level(n, equal)` is true only for the distance 1 with `equal` -/
theorem C62_leaf_partial (n : Nat) (h : Heap) {x : Id} (hk : h.kids x = []) (t : Int) (equal any : Bool) :
    inNegativeLevel n h x t equal any = some (.ok (equal && decide (t = 1 ∨ t = -1))) := by
  simp only [inNegativeLevel, hk, if_true, Option.some.injEq, Except.ok.injEq]
  congr 2
  apply propext
  omega

example : demo.kids 4 = [] ∧ demo.kids 0 ≠ [] := by decide

/-! ### C58 in depth -/

/-- C58, C30. `t.deep < u` and the other comparisons compare the number of items below `t` with the length of the other operand. -/
theorem C58_C30_deep_compare (H : Reach ms h) (x : Id) (m : Nat) : ∃ l : List Id, l.Nodup ∧ (∀ y, y ∈ l ↔ Below h x y ∧ y ≠ x) ∧ Delivers (fun n => deepLt n h x m) (decide (l.length < m)) ∧
    Delivers (fun n => deepLe n h x m) (decide (l.length ≤ m)) ∧ Delivers (fun n => deepGt n h x m) (decide (m < l.length)) ∧ Delivers (fun n => deepGe n h x m) (decide (m ≤ l.length)) := by
  obtain ⟨l, h1, h2, h3⟩ := C30_deep_len H x
  exact ⟨l, h1, h2, h3.map _, h3.map _, h3.map _, h3.map _⟩

example : deepLt 20 demo 0 6 = some true ∧ deepGe 20 demo 0 5 = some true ∧ deepGt 20 demo 0 5 = some false ∧ deepLe 20 demo 1 0 = some false := by decide +kernel

/-! ### C44 in depth -/

theorem famRun_flat (h : Heap) : ∀ l : List Id, (∀ c ∈ l, h.kids c = []) → famRun h l = (l, none) := by
  intro l
  induction l with
  | nil => intro _; rfl
  | cons y ys ih => intro hl; simp [famRun, hl y (by simp), ih fun c hc => hl c (by simp [hc])]

/-- C44. `list(t.deep.iter_family_items())` when no child has children: the children family by family, as `iter_family_items` of the item itself -/
theorem C44_deep_family_items_partial (R : Reach ms h) (p : Id) (hl : ∀ c ∈ h.kids p, h.kids c = []) :
    ∃ h', Delivers (fun n => (deepFamilyItems n h p).map (·.1)) ((ends h p false).flatMap fun c => withTag h p (h.tag c)) ∧ Unchanged h h' := by
  by_cases hk : h.kids p = []
  · exact ⟨h, ⟨0, fun n _ => by simp [deepFamilyItems, hk, ends]⟩, Frame.refl _ _ _⟩
  · obtain ⟨h', e, C⟩ := tags_ceq R p false
    refine ⟨h', ?_, C.unchanged⟩
    obtain ⟨F, hb, hF, O⟩ := R.core.wf.bound hk
    have loop : ∀ (cs : List Id), (∀ c ∈ cs, c ∈ h.kids p) → ∀ m, cs.length + 2 ≤ m →
        (gen famStep m ⟨h', [.tags (cs.map h.tag)], [p]⟩).map (·.1) = some (cs.flatMap fun c => withTag h p (h.tag c)) := by
      intro cs
      induction cs with
      | nil =>
        intro _ m hm
        obtain ⟨m, rfl⟩ : ∃ m', m = m' + 2 := ⟨m - 2, by simp at hm; omega⟩
        simp [gen, famStep]
      | cons c cs ih =>
        intro hc m hm
        obtain ⟨m, rfl⟩ : ∃ m', m = m' + 1 := ⟨m - 1, by simp at hm; omega⟩
        have hget : (((h'.boundFams p).getD []).lookup (h.tag c)) = some (withTag h p (h.tag c)) := by
          rw [C.boundFams, hb]
          have := O.get (h.tag c)
          rw [if_neg (List.ne_nil_of_mem (mem_famView.2 ⟨hc c (by simp), rfl⟩))] at this
          exact this
        have hrun : famRun h' (withTag h p (h.tag c)) = (withTag h p (h.tag c), none) := by
          refine famRun_flat h' _ fun y hy => ?_
          rw [C.kids]; exact hl y (List.mem_filter.1 hy).1
        have := ih (fun c' h' => hc c' (by simp [h'])) m (by simp at hm ⊢; omega)
        simp only [gen, List.map_cons, famStep, hget, hrun, List.flatMap_cons]
        rw [Option.map_map]
        cases hg : gen famStep m ⟨h', [.tags (cs.map h.tag)], [p]⟩ with
        | none => rw [hg] at this; simp at this
        | some r => rw [hg] at this; simp at this; simp [this]
    refine ⟨(ends h p false).length + 2, fun n hn => ?_⟩
    simp only [deepFamilyItems, if_neg hk, e]
    exact loop (ends h p false) (fun c hc => (List.mem_filter.1 hc).1) n hn

/-- a root with two children of different tags, the first of which has a child -/
def famHeap : Heap := run ms0 Heap.empty [.new (.other 0) .noValue [] 0#6, .new (.other 1) .noValue [] 0#6, .new (.other 2) .noValue [] 0#6, .new (.other 3) .noValue [] 0#6,
  .append 0 (.item 1), .append 0 (.item 2), .append 1 (.item 3)]
theorem famHeap_reach : Reach ms0 famHeap := (tidy_run _ .empty (by decide +kernel)).reach

/-- C44, the code against the expectation: after the first item with children the iteration does not return to the other families (nor to the rest of that family). -/
theorem C44_deep_family_items_wrong : Reach ms0 famHeap ∧ ((deepFamilyItems 40 famHeap 0).map (·.1)) = some [1, 3] ∧ deepList 40 famHeap 0 = some [1, 3, 2] :=
  ⟨famHeap_reach, by decide +kernel, by decide +kernel⟩

example : (∀ c ∈ demo.kids 1, demo.kids c = []) ∧ ((deepFamilyItems 40 demo 1).map (·.1)) = some [4] := by decide +kernel

end ITree
