import Verif.Proofs.FamIns
import Mathlib.Data.List.Infix
/-
List facts: inserting, erasing and filtering.
-/
namespace ITree

theorem insertIdx_split {α} (l : List α) (n : Nat) (x : α) (hn : n ≤ l.length) :
    l.insertIdx n x = l.take n ++ x :: l.drop n := by
  induction n generalizing l with
  | zero => simp
  | succ n ih =>
    cases l with
    | nil => simp at hn
    | cons a l => simp at hn; simp [List.insertIdx_succ_cons, ih l hn]

theorem filter_insertIdx {α} (q : α → Bool) (l : List α) (n : Nat) (x : α) (hn : n ≤ l.length) :
    (l.insertIdx n x).filter q =
      if q x then (l.filter q).insertIdx ((l.take n).filter q).length x else l.filter q := by
  rw [insertIdx_split l n x hn]
  have h0 : l.filter q = (l.take n).filter q ++ (l.drop n).filter q := by rw [← List.filter_append, List.take_append_drop]
  split
  · next hq =>
    rw [insertIdx_split]
    · simp only [List.filter_append, List.filter_cons, hq, if_true]
      rw [h0]; simp
    · rw [h0]; simp
  · next hq =>
    simp only [List.filter_append, List.filter_cons, hq]
    rw [h0]; simp

theorem filter_eraseIdx {α} (q : α → Bool) (l : List α) (n : Nat) (hn : n < l.length) :
    (l.eraseIdx n).filter q =
      if q l[n] then (l.filter q).eraseIdx ((l.take n).filter q).length else l.filter q := by
  rw [List.eraseIdx_eq_take_drop_succ]
  have h0 : l.filter q = (l.take n).filter q ++ (l.drop n).filter q := by rw [← List.filter_append, List.take_append_drop]
  rw [List.drop_eq_getElem_cons hn] at h0
  rw [h0]
  simp only [List.filter_append, List.filter_cons]
  split
  · rw [List.eraseIdx_append_of_length_le (by simp)]; simp
  · rfl

theorem filter_set {α} (q : α → Bool) (l : List α) (n : Nat) (x : α) (hn : n < l.length) (hx : q x = true) (ho : q l[n] = true) :
    (l.set n x).filter q = (l.filter q).set ((l.take n).filter q).length x := by
  have h0 : l.filter q = (l.take n).filter q ++ (l.drop n).filter q := by rw [← List.filter_append, List.take_append_drop]
  rw [List.drop_eq_getElem_cons hn] at h0
  rw [h0, List.set_eq_take_append_cons_drop, if_pos hn, List.filter_append, List.filter_cons_of_pos hx, List.filter_cons_of_pos ho,
    List.set_append_right _ _ (by simp)]
  simp

theorem idxOf_lt_of_mem_take {l : List Id} {n : Nat} {y : Id} (hy : y ∈ l.take n) : l.idxOf y < n := by
  have h1 : (l.take n ++ l.drop n).idxOf y < n := by
    rw [List.idxOf_append_of_mem hy]
    have := List.idxOf_lt_length_iff.2 hy
    have := List.length_take_le n l
    omega
  rwa [List.take_append_drop] at h1

theorem idxOf_pairwise {l : List Id} (hl : l.Nodup) : l.Pairwise (fun a b => l.idxOf a < l.idxOf b) := by
  rw [List.pairwise_iff_getElem]
  intro i j hi hj hij
  rw [hl.idxOf_getElem i hi, hl.idxOf_getElem j hj]; exact hij

theorem nodup_idxOf_unique {l : List Id} (hl : l.Nodup) {n : Nat} {y : Id} (hn : l[n]? = some y) : l.idxOf y = n := by
  obtain ⟨h1, h2⟩ := List.getElem?_eq_some_iff.1 hn
  rw [← h2]; exact hl.idxOf_getElem n h1

theorem insertIdx_nodup {l : List Id} {n : Nat} {x : Id} (hl : l.Nodup) (hx : x ∉ l) (hn : n ≤ l.length) : (l.insertIdx n x).Nodup := by
  rw [insertIdx_split l n x hn]
  rw [List.nodup_middle, List.take_append_drop]
  exact List.nodup_cons.2 ⟨hx, hl⟩

theorem mem_insertIdx' {l : List Id} {n : Nat} {x y : Id} (hn : n ≤ l.length) : y ∈ l.insertIdx n x ↔ y = x ∨ y ∈ l :=
  List.mem_insertIdx hn

/-- counting the family members in front of the inserted item -/
theorem count_before {L : List Id} {x : Id} {n : Nat} {k : Int} {q : Id → Bool} (hL : L.Nodup) (hx : x ∉ L) (hn : n ≤ L.length)
    (hk : (n : Int) ≤ k) (hkn : n < L.length → k = n) :
    (L.filter q).countP (fun y => ((L.insertIdx n x).idxOf y : Int) < k) = ((L.take n).filter q).length := by
  have h0 : L.filter q = (L.take n).filter q ++ (L.drop n).filter q := by rw [← List.filter_append, List.take_append_drop]
  rw [h0, List.countP_append]
  have hnd : (L.take n ++ L.drop n).Nodup := by rw [List.take_append_drop]; exact hL
  have hdisj := (List.nodup_append.1 hnd).2.2
  have e1 : ((L.take n).filter q).countP (fun y => ((L.insertIdx n x).idxOf y : Int) < k) = ((L.take n).filter q).length := by
    rw [List.countP_eq_length]
    intro y hy
    have hy := (List.mem_filter.1 hy).1
    rw [insertIdx_split L n x hn, List.idxOf_append_of_mem hy]
    have := List.idxOf_lt_length_iff.2 hy
    have := List.length_take_le n L
    simp; omega
  have e2 : ((L.drop n).filter q).countP (fun y => ((L.insertIdx n x).idxOf y : Int) < k) = 0 := by
    rw [List.countP_eq_zero]
    intro y hy
    have hy := (List.mem_filter.1 hy).1
    have hlt : n < L.length := by
      rcases Nat.lt_or_ge n L.length with h | h
      · exact h
      · rw [List.drop_eq_nil_of_le h] at hy; simp at hy
    have hnt : y ∉ L.take n := fun hm => hdisj y hm y hy rfl
    have hyx : y ≠ x := fun e => hx (e ▸ List.mem_of_mem_drop hy)
    rw [insertIdx_split L n x hn, List.idxOf_append_of_notMem hnt, List.idxOf_cons_ne _ (Ne.symm hyx)]
    simp [hkn hlt]; omega
  omega

/-- `list.insert` of a plain position -/
theorem pyInsert_nat {α} (l : List α) (i : Nat) (x : α) (hi : i ≤ l.length) : pyInsert l (i : Int) x = l.insertIdx i x := by
  have : ¬ ((i : Int) < 0) := by omega
  simp only [pyInsert, pyInsPos, this, if_false]; congr 1; simp; omega

theorem pyInsPos_le (len : Nat) (k : Int) : pyInsPos len k ≤ len := by
  unfold pyInsPos; split <;> omega

theorem pyPos_some {len : Nat} {k : Int} {n : Nat} (h : pyPos len k = some n) : n < len := by
  unfold pyPos at h
  split at h
  · split at h
    · simp at h; omega
    · simp at h
  · split at h
    · simp at h; omega
    · simp at h

theorem pyPos_nat {len n : Nat} (h : n < len) : pyPos len (n : Int) = some n := by
  unfold pyPos; simp [h]

theorem pyGet_eq {α} (l : List α) (k : Int) : pyGet l k = (pyPos l.length k).bind (fun n => l[n]?) := by
  unfold pyGet pyPos
  split
  · split
    · rfl
    · simp; omega
  · split
    · simp
    · rfl

theorem pyDel_nat {α} {l : List α} {n : Nat} (h : n < l.length) : pyDel l (n : Int) = l.eraseIdx n := by
  simp only [pyDel, pyPos_nat h]
theorem pySet_nat {α} {l : List α} {n : Nat} {x : α} (h : n < l.length) : pySet l (n : Int) x = l.set n x := by
  simp only [pySet, pyPos_nat h]

end ITree
