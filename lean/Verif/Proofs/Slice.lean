import Verif.Spec.Slice
import Mathlib.Tactic.Linarith
import Mathlib.Tactic.Ring
/-
The slices of the model satisfy the specification.
-/
namespace ITree

theorem upFrom_get (fuel : Nat) : ∀ (i stop step : Int) (n : Nat), 0 < step → (upFrom fuel i stop step)[n]? =
    if n < fuel ∧ i + n * step < stop then some (i + n * step) else none := by
  induction fuel with
  | zero => intro i stop step n _; simp [upFrom]
  | succ f ih =>
    intro i stop step n hs
    simp only [upFrom]
    by_cases h : i < stop
    · simp only [h, if_true]
      cases n with
      | zero => simp [h]
      | succ n =>
        rw [List.getElem?_cons_succ, ih _ _ _ _ hs]
        have e : i + step + (n : Int) * step = i + ((n + 1 : Nat) : Int) * step := by push_cast; ring
        rw [e]
        simp
    · have : ¬ (n < f + 1 ∧ i + (n : Int) * step < stop) := by
        rintro ⟨_, h2⟩
        have : 0 ≤ (n : Int) * step := Int.mul_nonneg (by omega) (by omega)
        omega
      simp only [h, if_false, this]
      simp

theorem downFrom_get (fuel : Nat) : ∀ (i stop step : Int) (n : Nat), step < 0 → (downFrom fuel i stop step)[n]? =
    if n < fuel ∧ stop < i + n * step then some (i + n * step) else none := by
  induction fuel with
  | zero => intro i stop step n _; simp [downFrom]
  | succ f ih =>
    intro i stop step n hs
    simp only [downFrom]
    by_cases h : stop < i
    · simp only [h, if_true]
      cases n with
      | zero => simp [h]
      | succ n =>
        rw [List.getElem?_cons_succ, ih _ _ _ _ hs]
        have e : i + step + (n : Int) * step = i + ((n + 1 : Nat) : Int) * step := by push_cast; ring
        rw [e]
        simp
    · have : ¬ (n < f + 1 ∧ stop < i + (n : Int) * step) := by
        rintro ⟨_, h2⟩
        have : (n : Int) * step ≤ 0 := Int.mul_nonpos_of_nonneg_of_nonpos (by omega) (by omega)
        omega
      simp only [h, if_false, this]
      simp

theorem filterMap_get {α β} (f : α → Option β) (l : List α) (h : ∀ a ∈ l, (f a).isSome) (n : Nat) : (l.filterMap f)[n]? = l[n]?.bind f := by
  induction l generalizing n with
  | nil => simp
  | cons a l ih =>
    obtain ⟨b, hb⟩ := Option.isSome_iff_exists.1 (h a (by simp))
    rw [List.filterMap_cons_some hb]
    cases n with
    | zero => simp [hb]
    | succ n => simpa using ih (fun a ha => h a (by simp [ha])) n

theorem clamp_up (len : Nat) (i : Int) : clampIdx len 0 len i = upBound len i := by
  simp only [clampIdx, upBound]; split <;> (try split) <;> (try split) <;> omega
theorem clamp_down (len : Nat) (i : Int) : clampIdx len (-1) (len - 1) i = downBound len i := by
  simp only [clampIdx, downBound]; split <;> (try split) <;> (try split) <;> omega
theorem upBound_range (len : Nat) (i : Int) : 0 ≤ upBound len i ∧ upBound len i ≤ len := by
  simp only [upBound]; split <;> omega
theorem downBound_range (len : Nat) (i : Int) : -1 ≤ downBound len i ∧ downBound len i ≤ (len : Int) - 1 := by
  simp only [downBound]; split <;> omega

theorem slice_up {α} (l : List α) (a b st : Int) (ha : 0 ≤ a) (hb : b ≤ l.length) (hs : 0 < st) (n : Nat) :
    ((upFrom l.length a b st).filterMap fun i => l[i.toNat]?)[n]? = if a + n * st < b then l[(a + n * st).toNat]? else none := by
  have hall : ∀ i ∈ upFrom l.length a b st, 0 ≤ i ∧ i < b := by
    intro i hi
    obtain ⟨m, hm⟩ := List.getElem?_of_mem hi
    rw [upFrom_get _ _ _ _ _ hs] at hm
    split at hm
    · next h =>
      have : 0 ≤ (m : Int) * st := Int.mul_nonneg (by omega) (by omega)
      simp at hm
      omega
    · simp at hm
  rw [filterMap_get _ _ (fun i hi => by
    have := hall i hi
    rw [List.getElem?_eq_getElem (by omega)]; rfl), upFrom_get _ _ _ _ _ hs]
  by_cases h : a + n * st < b
  · have hn : n < l.length := by
      have : (n : Int) ≤ (n : Int) * st := by nlinarith
      omega
    simp [h, hn]
  · simp [h]

theorem slice_down {α} (l : List α) (a b st : Int) (ha : a ≤ (l.length : Int) - 1) (hb : -1 ≤ b) (hs : st < 0) (n : Nat) :
    ((downFrom l.length a b st).filterMap fun i => l[i.toNat]?)[n]? = if b < a + n * st then l[(a + n * st).toNat]? else none := by
  have hall : ∀ i ∈ downFrom l.length a b st, 0 ≤ i ∧ i < l.length := by
    intro i hi
    obtain ⟨m, hm⟩ := List.getElem?_of_mem hi
    rw [downFrom_get _ _ _ _ _ hs] at hm
    split at hm
    · next h =>
      have : (m : Int) * st ≤ 0 := Int.mul_nonpos_of_nonneg_of_nonpos (by omega) (by omega)
      simp at hm
      omega
    · simp at hm
  rw [filterMap_get _ _ (fun i hi => by
    have := hall i hi
    rw [List.getElem?_eq_getElem (by omega)]; rfl), downFrom_get _ _ _ _ _ hs]
  by_cases h : b < a + n * st
  · have hn : n < l.length := by
      have : (n : Int) * st ≤ -(n : Int) := by nlinarith
      omega
    simp [h, hn]
  · simp [h]

theorem pySlice_isSlice {α} {l : List α} {s : PySlice} {r : List α} (h : pySlice l s = some r) : IsSlice l s r := by
  simp only [pySlice, PySlice.indices] at h
  by_cases h0 : s.step.getD 1 = 0
  · simp [h0] at h
  · by_cases hp : 0 < s.step.getD 1
    · left
      simp only [h0, hp, if_true, if_false, Option.map_some, Option.some.injEq] at h
      refine ⟨hp, fun n => ?_⟩
      subst h
      dsimp only
      have hA : 0 ≤ (match s.start with | none => (0 : Int) | some i => clampIdx l.length 0 l.length i) := by
        split
        · omega
        · rw [clamp_up]; exact (upBound_range _ _).1
      have hB : (match s.stop with | none => (l.length : Int) | some i => clampIdx l.length 0 l.length i) ≤ (l.length : Int) := by
        split
        · omega
        · rw [clamp_up]; exact (upBound_range _ _).2
      refine (slice_up l _ _ _ hA hB hp n).trans ?_
      cases s.start <;> cases s.stop <;> simp only [clamp_up]
    · right
      simp only [h0, hp, if_false, Option.map_some, Option.some.injEq] at h
      have hn : s.step.getD 1 < 0 := by omega
      refine ⟨hn, fun n => ?_⟩
      subst h
      dsimp only
      have hA : (match s.start with | none => (l.length : Int) - 1 | some i => clampIdx l.length (-1) (l.length - 1) i) ≤ (l.length : Int) - 1 := by
        split
        · omega
        · rw [clamp_down]; exact (downBound_range _ _).2
      have hB : -1 ≤ (match s.stop with | none => -1 | some i => clampIdx l.length (-1) (l.length - 1) i) := by
        split
        · omega
        · rw [clamp_down]; exact (downBound_range _ _).1
      refine (slice_down l _ _ _ hA hB hn n).trans ?_
      cases s.start <;> cases s.stop <;> simp only [clamp_down]

theorem pySlice_none {α} {l : List α} {s : PySlice} : pySlice l s = none ↔ s.step = some 0 := by
  simp only [pySlice, PySlice.indices]
  cases hs : s.step with
  | none => simp
  | some st =>
    by_cases h : st = 0
    · simp [h]
    · simp only [Option.getD_some, h, if_false]; split <;> simp [h]

/-- the specification determines the slice -/
theorem IsSlice.unique {α} {l : List α} {s : PySlice} {r r' : List α} (h : IsSlice l s r) (h' : IsSlice l s r') : r = r' := by
  apply List.ext_getElem?
  intro n
  rcases h with ⟨a, b⟩ | ⟨a, b⟩ <;> rcases h' with ⟨a', b'⟩ | ⟨a', b'⟩
  · rw [b, b']
  · omega
  · omega
  · rw [b, b']

end ITree
