import Verif.Spec.DataModel
import Mathlib.Order.Basic
/-
Lemmas about the value models.
-/
namespace DModels

theorem foldl_max_le (l : List Nat) : ∀ (a m : Nat), l.foldl max a ≤ m ↔ a ≤ m ∧ ∀ x ∈ l, x ≤ m := by
  induction l with
  | nil => simp
  | cons y l ih => intro a m; simp only [List.foldl_cons, ih, List.mem_cons, forall_eq_or_imp, max_le_iff, and_assoc]

theorem maxOf_le (l : List Nat) (m : Nat) : maxOf l ≤ m ↔ ∀ x ∈ l, x ≤ m := by simp [maxOf, foldl_max_le]

theorem mergeMax_getD (a b : List Nat) (k : Nat) : (mergeMax a b).getD k 0 = max (a.getD k 0) (b.getD k 0) := by
  induction a generalizing b k with
  | nil => cases b <;> simp [mergeMax]
  | cons o a ih =>
    cases b with
    | nil => simp [mergeMax]
    | cons n b =>
      cases k with
      | zero => simp only [mergeMax, List.getD_cons_zero]; split <;> omega
      | succ k => simp only [mergeMax, List.getD_cons_succ, ih]

theorem mergeMax_pos (a b : List Nat) (ha : ∀ s ∈ a, 0 < s) (hb : ∀ s ∈ b, 0 < s) : ∀ s ∈ mergeMax a b, 0 < s := by
  induction a generalizing b with
  | nil => cases b <;> simpa [mergeMax] using hb
  | cons o a ih =>
    cases b with
    | nil => simpa [mergeMax] using ha
    | cons n b =>
      intro s hs
      simp only [mergeMax, List.mem_cons] at hs
      rcases hs with rfl | hs
      · have := ha o (by simp); have := hb n (by simp); split <;> assumption
      · exact ih b (fun s hs => ha s (by simp [hs])) (fun s hs => hb s (by simp [hs])) s hs

theorem fold_getD (L : List (List Nat)) (acc : List Nat) (k m : Nat) : (L.foldl mergeMax acc).getD k 0 ≤ m ↔ acc.getD k 0 ≤ m ∧ ∀ x ∈ L, x.getD k 0 ≤ m := by
  induction L generalizing acc with
  | nil => simp
  | cons x L ih => simp only [List.foldl_cons, ih, mergeMax_getD, List.mem_cons, forall_eq_or_imp, max_le_iff, and_assoc]

theorem fold_pos (L : List (List Nat)) (acc : List Nat) (ha : ∀ s ∈ acc, 0 < s) (hL : ∀ x ∈ L, ∀ s ∈ x, 0 < s) : ∀ s ∈ L.foldl mergeMax acc, 0 < s := by
  induction L generalizing acc with
  | nil => simpa using ha
  | cons x L ih => exact ih _ (mergeMax_pos _ _ ha (hL x (by simp))) fun y hy => hL y (by simp [hy])

theorem mem_zipLongest (rows : List (List DVal)) (g : DVal) (h : g ∈ (zipLongest rows).flatten) : g = .int 0 ∨ ∃ r ∈ rows, g ∈ r := by
  simp only [zipLongest, List.mem_flatten, List.mem_map, List.mem_range] at h
  obtain ⟨c, ⟨j, _, rfl⟩, h⟩ := h
  obtain ⟨r, hr, rfl⟩ := List.mem_map.1 h
  rw [List.getD_eq_getElem?_getD]
  cases hj : r[j]? with
  | none => exact .inl rfl
  | some g => exact .inr ⟨r, hr, List.mem_of_getElem? hj⟩

theorem zipLongest_mem (rows : List (List DVal)) (r : List DVal) (hr : r ∈ rows) (g : DVal) (hg : g ∈ r) : g ∈ (zipLongest rows).flatten := by
  obtain ⟨j, hj, rfl⟩ := List.getElem_of_mem hg
  simp only [zipLongest, List.mem_flatten, List.mem_map, List.mem_range]
  refine ⟨_, ⟨j, ?_, rfl⟩, List.mem_map.2 ⟨r, hr, by simp [hj]⟩⟩
  have := (maxOf_le (rows.map List.length) _).1 (Nat.le_refl _) r.length (List.mem_map.2 ⟨r, hr, rfl⟩)
  omega

/-- the sequences directly inside -/
def DVal.kids : DVal → List DVal
  | .str _ => []
  | v => v.elems

theorem maxSizeL_le (k m : Nat) (l : List DVal) : maxSizeL k l ≤ m ↔ ∀ c ∈ l, c.maxSize k ≤ m := by
  induction l with
  | nil => simp [maxSizeL]
  | cons v l ih => simp [maxSizeL, ih]

theorem maxSizeK_le (k m : Nat) (l : List (DVal × DVal)) : maxSizeK k l ≤ m ↔ ∀ c ∈ l.map (·.1), c.maxSize k ≤ m := by
  induction l with
  | nil => simp [maxSizeK]
  | cons v l ih => obtain ⟨a, b⟩ := v; simp only [maxSizeK, max_le_iff, ih, List.map_cons, List.mem_cons, forall_eq_or_imp]

theorem maxSize_succ_le (k m : Nat) (v : DVal) : v.maxSize (k + 1) ≤ m ↔ ∀ c ∈ v.kids, c.maxSize k ≤ m := by
  cases v with
  | list l => exact maxSizeL_le k m l
  | tuple l => exact maxSizeL_le k m l
  | dict l => exact maxSizeK_le k m l
  | _ => simp [DVal.maxSize, DVal.kids, DVal.elems]

theorem size_eq (v : DVal) : v.size = v.elems.length := by cases v <;> simp [DVal.size, DVal.elems]

theorem noCharL_iff (l : List DVal) : NoCharL l ↔ ∀ c ∈ l, c.NoChar := by
  induction l with
  | nil => simp [NoCharL]
  | cons v l ih => simp [NoCharL, ih]

theorem noCharK_iff (l : List (DVal × DVal)) : NoCharK l ↔ ∀ c ∈ l.map (·.1), c.NoChar := by
  induction l with
  | nil => simp [NoCharK]
  | cons v l ih => obtain ⟨a, b⟩ := v; simp only [NoCharK, ih, List.map_cons, List.mem_cons, forall_eq_or_imp]

theorem noChar_kids {v : DVal} (h : v.NoChar) : ∀ c ∈ v.kids, c.NoChar := by
  cases v with
  | list l => exact (noCharL_iff l).1 h
  | tuple l => exact (noCharL_iff l).1 h
  | dict l => exact (noCharK_iff l).1 h
  | _ => simp [DVal.kids, DVal.elems]

theorem depthL_le (l : List DVal) : ∀ c ∈ l, c.depth ≤ depthL l := by
  induction l with
  | nil => simp
  | cons v l ih =>
    intro c hc
    rcases List.mem_cons.1 hc with rfl | hc
    · simp [depthL]
    · have := ih c hc; simp only [depthL]; omega

theorem depthK_le (l : List (DVal × DVal)) : ∀ c ∈ l.map (·.1), c.depth ≤ depthK l := by
  induction l with
  | nil => simp
  | cons v l ih =>
    obtain ⟨a, b⟩ := v
    intro c hc
    rcases List.mem_cons.1 hc with rfl | hc
    · simp [depthK]
    · have := ih c hc; simp only [depthK]; omega

theorem depth_kids {v : DVal} : ∀ c ∈ v.kids, c.depth < v.depth := by
  cases v with
  | list l => intro c hc; have := depthL_le l c hc; simp only [DVal.depth]; omega
  | tuple l => intro c hc; have := depthL_le l c hc; simp only [DVal.depth]; omega
  | dict l => intro c hc; have := depthK_le l c hc; simp only [DVal.depth]; omega
  | _ => simp [DVal.kids, DVal.elems]

/-- the part of `maxShape` for values that are no strings -/
theorem maxShape_seq (n : Nat) (v : DVal) (hv : ∀ s, v ≠ .str s) : maxShape (n + 1) v =
    if v.elems.length = 0 then [] else
      if ((zipLongest (v.elems.map DVal.elems)).flatten.map (maxShape n)).foldl mergeMax [] ≠ [] then
        v.elems.length :: (zipLongest (v.elems.map DVal.elems)).length :: ((zipLongest (v.elems.map DVal.elems)).flatten.map (maxShape n)).foldl mergeMax []
      else if (zipLongest (v.elems.map DVal.elems)).length ≠ 0 then [v.elems.length, (zipLongest (v.elems.map DVal.elems)).length] else [v.elems.length] := by
  cases v with
  | str s => exact absurd rfl (hv s)
  | _ => rfl

theorem maxShape_char (n : Nat) (c : Char) : maxShape n (.str [c]) = [] := by cases n <;> simp [maxShape]

theorem maxShape_fill (n : Nat) : maxShape n (.int 0) = [] := by cases n <;> simp [maxShape, DVal.elems]

/-- entries of a measured shape are positive -/
theorem maxShape_pos (n : Nat) : ∀ v, ∀ s ∈ maxShape n v, 0 < s := by
  induction n with
  | zero => intro v s hs; simp [maxShape] at hs
  | succ n ih =>
    intro v s hs
    by_cases hv : ∃ t, v = .str t
    · obtain ⟨t, rfl⟩ := hv
      simp only [maxShape] at hs
      split at hs
      · simp at hs
      · simp at hs; omega
    · rw [maxShape_seq n v fun t ht => hv ⟨t, ht⟩] at hs
      have hsub : ∀ x ∈ ((zipLongest (v.elems.map DVal.elems)).flatten.map (maxShape n)).foldl mergeMax [], 0 < x := by
        apply fold_pos _ _ (by simp)
        intro x hx
        obtain ⟨g, _, rfl⟩ := List.mem_map.1 hx
        exact ih g
      split at hs
      · simp at hs
      · split at hs
        · rename_i h0 h1
          have h2 : (zipLongest (v.elems.map DVal.elems)).length ≠ 0 := by
            intro h; rw [List.length_eq_zero_iff] at h; rw [h] at h1; exact h1 rfl
          rcases List.mem_cons.1 hs with rfl | hs
          · omega
          · rcases List.mem_cons.1 hs with rfl | hs
            · omega
            · exact hsub s hs
        · split at hs
          · simp at hs; omega
          · simp at hs; omega

/-- the measured shape is the maximum size at each depth -/
theorem maxShape_spec (n : Nat) : ∀ v, v.depth ≤ n → v.NoChar → ∀ k, (maxShape n v).getD k 0 = v.maxSize k := by
  induction n with
  | zero => intro v hv; exfalso; cases v <;> simp [DVal.depth] at hv
  | succ n ih =>
    intro v hd hn k
    by_cases hv : ∃ t, v = .str t
    · obtain ⟨t, rfl⟩ := hv
      have h1 : t.length ≠ 1 := hn
      simp only [maxShape]
      cases k with
      | zero =>
        simp only [DVal.maxSize, DVal.size]
        split
        · simp; omega
        · rfl
      | succ k =>
        have : (DVal.str t).maxSize (k + 1) = 0 := by simp [DVal.maxSize]
        rw [this]
        split <;> simp
    · have hv' : ∀ t, v ≠ .str t := fun t ht => hv ⟨t, ht⟩
      have hk : v.kids = v.elems := by cases v <;> first | rfl | exact absurd rfl (hv' _)
      rw [maxShape_seq n v hv']
      have hlen : (zipLongest (v.elems.map DVal.elems)).length = maxOf ((v.elems.map DVal.elems).map List.length) := by simp [zipLongest]
      have h1 : (zipLongest (v.elems.map DVal.elems)).length = v.maxSize 1 := by
        apply eq_of_forall_ge_iff
        intro m
        rw [maxSize_succ_le, hlen, maxOf_le, hk]
        simp [DVal.maxSize, size_eq]
      have h2 : ∀ k, (((zipLongest (v.elems.map DVal.elems)).flatten.map (maxShape n)).foldl mergeMax []).getD k 0 = v.maxSize (k + 2) := by
        intro k
        apply eq_of_forall_ge_iff
        intro m
        rw [fold_getD, maxSize_succ_le, hk]
        constructor
        · rintro ⟨_, h⟩ c hc
          rw [maxSize_succ_le]
          intro g hg
          have hd1 := depth_kids c (hk ▸ hc)
          have hd2 := depth_kids g hg
          rw [← ih g (by omega) (noChar_kids (noChar_kids hn c (hk ▸ hc)) g hg)]
          apply h
          refine List.mem_map.2 ⟨g, zipLongest_mem _ c.elems (List.mem_map.2 ⟨c, hc, rfl⟩) g ?_, rfl⟩
          cases c <;> simp_all [DVal.kids]
        · intro h
          refine ⟨by simp, ?_⟩
          intro x hx
          obtain ⟨g, hg, rfl⟩ := List.mem_map.1 hx
          rcases mem_zipLongest _ g hg with rfl | ⟨r, hr, hg⟩
          · simp [maxShape_fill]
          · obtain ⟨c, hc, rfl⟩ := List.mem_map.1 hr
            by_cases hcs : ∃ t, c = .str t
            · obtain ⟨t, rfl⟩ := hcs
              simp only [DVal.elems, List.mem_map] at hg
              obtain ⟨a, _, rfl⟩ := hg
              simp [maxShape_char]
            · have hck : c.kids = c.elems := by cases c <;> first | rfl | exact absurd ⟨_, rfl⟩ hcs
              have hg' : g ∈ c.kids := hck ▸ hg
              have hd1 := depth_kids c (hk ▸ hc)
              have hd2 := depth_kids g hg'
              rw [ih g (by omega) (noChar_kids (noChar_kids hn c (hk ▸ hc)) g hg')]
              exact (maxSize_succ_le _ _ _).1 (h c hc) g hg'

      by_cases h0 : v.elems.length = 0
      · rw [if_pos h0]
        have he : v.elems = [] := List.length_eq_zero_iff.1 h0
        have : v.maxSize k ≤ 0 := by
          cases k with
          | zero => simp [DVal.maxSize, size_eq, he]
          | succ k => rw [maxSize_succ_le, hk, he]; simp
        simp; omega
      · rw [if_neg h0]
        by_cases h3 : ((zipLongest (v.elems.map DVal.elems)).flatten.map (maxShape n)).foldl mergeMax [] = []
        · have h4 := h2
          rw [h3] at h4
          rw [if_neg (by simpa using h3)]
          by_cases h5 : (zipLongest (v.elems.map DVal.elems)).length = 0
          · rw [if_neg (by simpa using h5)]
            rw [h5] at h1
            match k with
            | 0 => simp [DVal.maxSize, size_eq]
            | 1 => simp [← h1]
            | k + 2 => simpa using h4 k
          · rw [if_pos h5]
            match k with
            | 0 => simp [DVal.maxSize, size_eq]
            | 1 => simp [← h1]
            | k + 2 => simpa using h4 k
        · rw [if_pos h3]
          match k with
          | 0 => simp [DVal.maxSize, size_eq]
          | 1 => simp [← h1]
          | k + 2 => simpa using h2 k

/-! ### the shape check -/

open Classical in
theorem shapeLoop_spec (T : List Dim) (V : List Nat) : ∀ i, i ≤ T.length →
    shapeLoop T i V =
      if (∀ (j : Nat) t s, T[i + j]? = some t → V[j]? = some s → Dim.Allows t s) then
        (if T.length - i < V.length then (if T ≠ [] ∧ T.getLast? = some .any then some (Except.ok true) else some (Except.error DErr.value)) else Option.none)
      else some (Except.error DErr.value) := by
  induction V with
  | nil => intro i hi; simp [shapeLoop]
  | cons s V ih =>
    intro i hi
    rw [shapeLoop]
    by_cases hlt : T.length ≤ i
    · have he : i = T.length := by omega
      subst he
      have hall : ∀ (j : Nat) t u, T[T.length + j]? = some t → (s :: V)[j]? = some u → Dim.Allows t u := by
        intro j t u h; rw [List.getElem?_eq_none (by omega)] at h; simp at h
      have hl : T.length - T.length < (s :: V).length := by simp
      rw [if_pos hlt, if_pos hall, if_pos hl]
    · rw [if_neg hlt]
      have hrest : (∀ (j : Nat) t u, T[i + j]? = some t → (s :: V)[j]? = some u → Dim.Allows t u) ↔ (∀ t, T[i]? = some t → Dim.Allows t s) ∧ ∀ (j : Nat) t u, T[i + 1 + j]? = some t → V[j]? = some u → Dim.Allows t u := by
        constructor
        · intro h
          refine ⟨fun t ht => h 0 t s (by simpa using ht) (by simp), fun j t u ht hu => h (j + 1) t u ?_ (by simpa using hu)⟩
          rw [show i + (j + 1) = i + 1 + j by omega]; exact ht
        · rintro ⟨h1, h2⟩ j t u ht hu
          cases j with
          | zero => simp at hu; subst hu; exact h1 t (by simpa using ht)
          | succ j => exact h2 j t u (by rw [show i + 1 + j = i + (j + 1) by omega]; exact ht) (by simpa using hu)
      have hlen : (T.length - i < (s :: V).length) ↔ (T.length - (i + 1) < V.length) := by simp; omega
      have hti : T[i]? = some T[i] := by simp [show i < T.length by omega]
      have hA : (∀ t, T[i]? = some t → Dim.Allows t s) ↔ Dim.Allows T[i] s := by rw [hti]; simp
      simp only [hrest, hlen, hA]
      have hih := ih (i + 1) (by omega)
      rw [hti]
      cases hT : T[i] with
      | any => simp only [Dim.Allows, true_and]; exact hih
      | inf => simp only [Dim.Allows, true_and]; exact hih
      | int n =>
        simp only [Dim.Allows]
        by_cases hn : n < (s : Int)
        · rw [if_pos hn]; simp only [show ¬ ((s : Int) ≤ n) by omega, false_and, if_false]
        · rw [if_neg hn]
          have : ((s : Int) ≤ n) := by omega
          simp only [this, true_and]
          exact hih

/-- what the shape check accepts -/
theorem checkShape_iff (T : List Dim) (V : List Nat) : (∃ b, checkShape T V = .ok b) ↔
    (∀ (i : Nat) t s, T[i]? = some t → V[i]? = some s → Dim.Allows t s) ∧
    (V.length = T.length ∨ (V.length < T.length ∧ T[V.length]? = some .any) ∨ (T.length < V.length ∧ T ≠ [] ∧ T.getLast? = some .any)) := by
  unfold checkShape
  rw [shapeLoop_spec T V 0 (by omega)]
  simp only [Nat.sub_zero]
  by_cases h1' : ∀ (j : Nat) t s, T[0 + j]? = some t → V[j]? = some s → Dim.Allows t s
  · have h1 : ∀ (j : Nat) t s, T[j]? = some t → V[j]? = some s → Dim.Allows t s := by simpa using h1'
    rw [if_pos h1']
    rw [and_iff_right h1]
    by_cases h2 : T.length < V.length
    · rw [if_pos h2]
      by_cases h3 : T ≠ [] ∧ T.getLast? = some .any
      · rw [if_pos h3]; simp [h2, h3]
      · rw [if_neg h3]; simp [h2, h3]; omega
    · rw [if_neg h2]
      simp only
      by_cases h3 : V.length < T.length
      · by_cases h4 : T[V.length]? = some .any
        · rw [if_neg (by rintro ⟨rfl, _, h⟩; exact h h4), if_pos h3, if_pos h4]; exact ⟨fun _ => .inr (.inl ⟨h3, h4⟩), fun _ => ⟨true, rfl⟩⟩
        · have : ¬ (∃ b : Bool, (if V = [] ∧ T ≠ [] ∧ T[0]? ≠ some .any then (.error .value : Except DErr Bool) else if V.length < T.length then if T[V.length]? = some .any then .ok true else .error .value else .ok true) = .ok b) := by
            rw [if_pos h3, if_neg h4]; split <;> simp
          refine ⟨fun h => absurd h this, ?_⟩
          rintro (h | ⟨_, h⟩ | ⟨h, _⟩)
          · omega
          · exact absurd h h4
          · omega
      · have : V.length = T.length := by omega
        rw [if_neg, if_neg h3]
        · simp [this]
        · rintro ⟨rfl, h, _⟩; exact h (List.length_eq_zero_iff.1 this.symm)
  · have h1 : ¬ ∀ (j : Nat) t s, T[j]? = some t → V[j]? = some s → Dim.Allows t s := by simpa using h1'
    rw [if_neg h1']
    simp only [reduceCtorEq, exists_false, false_iff]
    exact fun h => h1 h.1

/-! ### the checks -/

theorem leaf_good {S : Spec} {v w : DVal} (h : S.leaf v = .ok w) : GoodItem S w := by
  unfold Spec.leaf at h
  split at h
  · simp at h
  · rename_i w' hw
    split at h
    · rename_i hc
      simp only [Except.ok.injEq] at h; subst h
      exact ⟨⟨v, hw⟩, by simp [hc]⟩
    · rename_i c hc
      split at h <;> simp only [Except.ok.injEq, reduceCtorEq] at h
      subst h
      exact ⟨⟨v, hw⟩, by intro c' h'; rw [hc] at h'; cases h'; assumption⟩

theorem checkL_good {S : Spec} {l r : List DVal} (ih : ∀ v ∈ l, ∀ w, S.check v = .ok w → GoodItems S w) (h : S.checkL l = .ok r) : ∀ w ∈ r, GoodItems S w := by
  induction l generalizing r with
  | nil => simp only [Spec.checkL, Except.ok.injEq] at h; subst h; simp
  | cons v l ih' =>
    simp only [Spec.checkL] at h
    split at h
    · simp at h
    · rename_i w hw
      cases hr : S.checkL l with
      | error e => rw [hr] at h; simp [Except.map] at h
      | ok r' =>
        rw [hr] at h
        simp only [Except.map, Except.ok.injEq] at h
        subst h
        intro x hx
        rcases List.mem_cons.1 hx with rfl | hx
        · exact ih v (by simp) _ hw
        · exact ih' (fun v hv => ih v (by simp [hv])) hr x hx

theorem checkK_eq (S : Spec) (l : List (DVal × DVal)) : S.checkK l = S.checkL (l.map (·.1)) := by
  induction l with
  | nil => rfl
  | cons kv l ih => obtain ⟨k, v⟩ := kv; simp only [Spec.checkK, List.map_cons, Spec.checkL, ih]

theorem check_seq (S : Spec) (v : DVal) (hv : (∃ l, v = .list l) ∨ (∃ l, v = .tuple l) ∨ ∃ l, v = .dict l) : S.check v = (S.checkL v.elems).map .list := by
  rcases hv with ⟨l, rfl⟩ | ⟨l, rfl⟩ | ⟨l, rfl⟩
  · simp only [Spec.check, DVal.elems]
  · simp only [Spec.check, DVal.elems]
  · simp only [Spec.check, DVal.elems, checkK_eq]

theorem check_good {S : Spec} (n : Nat) : ∀ v w, v.depth ≤ n → S.check v = .ok w → GoodItems S w := by
  induction n with
  | zero => intro v w hv; exfalso; cases v <;> simp [DVal.depth] at hv
  | succ n ih =>
    intro v w hv h
    by_cases hs : (∃ l, v = .list l) ∨ (∃ l, v = .tuple l) ∨ ∃ l, v = .dict l
    · rw [check_seq S v hs] at h
      cases hr : S.checkL v.elems with
      | error e => rw [hr] at h; simp [Except.map] at h
      | ok r =>
        rw [hr] at h
        simp only [Except.map, Except.ok.injEq] at h
        subst h
        refine .list (checkL_good ?_ hr)
        intro c hc w hw
        have : c ∈ v.kids := by rcases hs with ⟨l, rfl⟩ | ⟨l, rfl⟩ | ⟨l, rfl⟩ <;> exact hc
        have := depth_kids c this
        exact ih c w (by omega) hw
    · cases v with
      | list l => exact absurd (.inl ⟨l, rfl⟩) hs
      | tuple l => exact absurd (.inr (.inl ⟨l, rfl⟩)) hs
      | dict l => exact absurd (.inr (.inr ⟨l, rfl⟩)) hs
      | _ => simp only [Spec.check] at h; exact .item (leaf_good h)

end DModels
