import Verif.Props.Getter
import Mathlib.Data.List.Chain
import Mathlib.Data.Fintype.Card
/-
C48: `get.by_idx_slice`, `get.by_level_filter`, `get.same_index_children`.
-/
namespace ITree

variable {ms : ModelSet} {h : Heap}

theorem pySlice_some {α} (l : List α) {s : PySlice} (hs : s.step ≠ some 0) : ∃ r, pySlice l s = some r := by
  have : ¬ s.step.getD 1 = 0 := by
    cases hh : s.step with
    | none => simp
    | some k => simp only [Option.getD_some]; intro e; exact hs (by rw [hh, e])
  unfold pySlice PySlice.indices
  simp only [this, if_false]
  split <;> simp

/-- the children a slice selects -/
def slice1 (h : Heap) (s : PySlice) (q : Id) : List Id := (pySlice (h.kids q) s).getD []

/-- specification: what a list of slices selects, level by level -/
def sliceLevels (h : Heap) : List Id → List PySlice → List Id
  | S, [] => S
  | S, s :: ss => sliceLevels h (S.flatMap (slice1 h s)) ss

/-- nothing found is an IndexError -/
def orIndexError (l : List Id) : Except Err (List Id) := if l = [] then .error .index else .ok l

theorem sliceLevels_nil (h : Heap) : ∀ ss, sliceLevels h [] ss = []
  | [] => rfl
  | _ :: ss => by simp [sliceLevels, sliceLevels_nil h ss]

theorem mapM_slices (h : Heap) {s : PySlice} (hs : s.step ≠ some 0) : ∀ r : List Id,
    (r.mapM fun q => match pySlice (h.kids q) s with | some l => (Except.ok l : Except Err (List Id)) | none => .error .value) = .ok (r.map (slice1 h s))
  | [] => rfl
  | q :: r => by
    obtain ⟨l, hl⟩ := pySlice_some (h.kids q) hs
    simp only [List.mapM_cons, mapM_slices h hs r, hl, List.map_cons, slice1, Option.getD_some]
    rfl

theorem byIdxSlice_go (h : Heap) : ∀ (ss : List PySlice), (∀ s ∈ ss, s.step ≠ some 0) → ∀ r, (ss = [] → r ≠ []) →
    byIdxSlice.go (fun q s => match pySlice (h.kids q) s with | some l => .ok l | none => .error .value) r ss = orIndexError (sliceLevels h r ss)
  | [], _, r, hr => by simp [byIdxSlice.go, sliceLevels, hr rfl, orIndexError]
  | s :: ss, hs, r, _ => by
    have e : (r.map (slice1 h s)).flatten = r.flatMap (slice1 h s) := by rw [List.flatMap_def]
    simp only [byIdxSlice.go, mapM_slices h (hs s (by simp)) r, sliceLevels, e]
    by_cases hn : r.flatMap (slice1 h s) = []
    · rw [if_pos hn, hn, sliceLevels_nil]; rfl
    · rw [if_neg hn]
      exact byIdxSlice_go h ss (fun s hs' => hs s (by simp [hs'])) _ fun _ => hn

/-- C48: `get.by_idx_slice(s1, s2, …)` delivers exactly the items selected level by level, in order; IndexError if there are none. -/
theorem C48_by_idx_slice (h : Heap) (p : Id) (s : PySlice) (ss : List PySlice) (hs : ∀ u ∈ s :: ss, u.step ≠ some 0) :
    byIdxSlice h p s ss = orIndexError (sliceLevels h [p] (s :: ss)) := by
  obtain ⟨l, hl⟩ := pySlice_some (h.kids p) (hs s (by simp))
  have e : sliceLevels h [p] (s :: ss) = sliceLevels h l ss := by simp [sliceLevels, slice1, hl]
  rw [e]
  by_cases hss : ss = []
  · subst hss
    simp only [byIdxSlice, hl, sliceLevels, if_true, orIndexError]
    by_cases hn : l = [] <;> simp [hn]
  · have := byIdxSlice_go h ss (fun u hu => hs u (by simp [hu])) l (fun e => absurd e hss)
    simp only [byIdxSlice, hl, hss, if_false]
    exact this

example : byIdxSlice demo 0 ⟨none, some 2, none⟩ [⟨none, none, none⟩] = .ok [4] ∧ byIdxSlice demo 0 ⟨some 3, none, some (-2)⟩ [] = .ok [5, 2] ∧
    byIdxSlice demo 0 ⟨some 1, none, none⟩ [⟨none, none, none⟩] = .error .index := by decide +kernel

/-- C48 (partial: at most two filters, see `C48_level_filter_stops`). `get.by_level_filter` delivers the matching children resp. the matching children of matching children. -/
theorem C48_level_filter_partial (h : Heap) (p : Id) (hk : h.kids p ≠ []) (f g : Id → Bool) :
    byLevelFilter h p f [] = .ok ((h.kids p).filter f) ∧
    (∀ l, byLevelFilter h p f [g] = .ok l ↔ l ≠ [] ∧ l = ((h.kids p).filter f).flatMap fun q => (h.kids q).filter g) := by
  refine ⟨by simp [byLevelFilter, hk], fun l => ?_⟩
  simp only [byLevelFilter, hk, if_false]
  constructor
  · intro e
    split at e
    · cases e
    · rename_i hn
      obtain rfl := Except.ok.inj e
      exact ⟨hn, rfl⟩
  · rintro ⟨hn, rfl⟩
    rw [if_neg hn]

example : byLevelFilter demo 0 (fun x => x == 1) [fun _ => true] = .ok [4] := by decide +kernel

/-! ### same_index_children -/

theorem pyGet_in {l : List Id} {i : Int} {c : Id} (e : pyGet l i = some c) : c ∈ l := pyGet_mem e

theorem sameIndexAux_chain (h : Heap) (i : Int) : ∀ n p, (p :: sameIndexAux n h p i).IsChain (fun a b => pyGet (h.kids a) i = some b) ∧
    ((sameIndexAux n h p i).length < n → ∀ z, (p :: sameIndexAux n h p i).getLast? = some z → pyGet (h.kids z) i = none)
  | 0, p => by simp [sameIndexAux]
  | n + 1, p => by
    generalize e : pyGet (h.kids p) i = o
    cases o with
    | none => simp [sameIndexAux, e]
    | some c =>
      obtain ⟨a, b⟩ := sameIndexAux_chain h i n c
      simp only [sameIndexAux, e]
      refine ⟨.cons_cons e a, fun hl z hz => b (by simpa using hl) z ?_⟩
      rw [List.getLast?_cons_cons] at hz
      exact hz

theorem sameIndexAux_below (h : Heap) (i : Int) : ∀ n p, ∀ z ∈ sameIndexAux n h p i, ∃ c ∈ h.kids p, Below h c z
  | 0, p => by simp [sameIndexAux]
  | n + 1, p => by
    generalize e : pyGet (h.kids p) i = o
    cases o with
    | none => simp [sameIndexAux, e]
    | some c =>
      intro z hz
      simp only [sameIndexAux, e, List.mem_cons] at hz
      refine ⟨c, pyGet_in e, ?_⟩
      rcases hz with rfl | hz
      · exact .refl
      · obtain ⟨d, hd, hb⟩ := sameIndexAux_below h i n c z hz
        exact (Below.refl.step hd).trans hb

theorem sameIndexAux_nodup (C : Core h) (i : Int) : ∀ n p, (p :: sameIndexAux n h p i).Nodup
  | 0, p => by simp [sameIndexAux]
  | n + 1, p => by
    rw [List.nodup_cons]
    refine ⟨fun hp => ?_, ?_⟩
    · obtain ⟨c, hc, hb⟩ := sameIndexAux_below h i _ p p hp
      exact C.forest.irrefl hc hb
    · generalize e : pyGet (h.kids p) i = o
      cases o with
      | none => simp [sameIndexAux, e]
      | some c => simp only [sameIndexAux, e]; exact sameIndexAux_nodup C i n c

/-- C48: `get.same_index_children(i)` is the chain child `i` of `t`, child `i` of this child, …; it ends exactly at the first item without a child `i`. -/
theorem C48_same_index (H : Reach ms h) (p : Id) (i : Int) :
    (p :: sameIndexChildren h p i false).IsChain (fun a b => pyGet (h.kids a) i = some b) ∧
    (∀ z, (p :: sameIndexChildren h p i false).getLast? = some z → pyGet (h.kids z) i = none) ∧
    sameIndexChildren h p i true = p :: sameIndexChildren h p i false := by
  have C := H.core
  obtain ⟨a, b⟩ := sameIndexAux_chain h i h.next p
  simp only [sameIndexChildren, Bool.false_eq_true, if_false, List.nil_append, if_true, List.singleton_append, and_true]
  refine ⟨a, ?_⟩
  by_cases hp : p < h.next
  · apply b
    have nd := sameIndexAux_nodup C i h.next p
    have lt : ∀ z ∈ p :: sameIndexAux h.next h p i, z < h.next := by
      intro z hz
      rcases List.mem_cons.1 hz with rfl | hz
      · exact hp
      · obtain ⟨c, hc, hb⟩ := sameIndexAux_below h i _ p z hz
        obtain ⟨r, hr, _⟩ := C.wf.kid_parent p c hc
        cases hb with
        | refl => exact C.wf.lt_of_parent hr
        | step _ hz =>
          obtain ⟨r, hr, _⟩ := C.wf.kid_parent _ z hz
          exact C.wf.lt_of_parent hr
    have := (nd.subperm (l₂ := List.range h.next) fun z hz => List.mem_range.2 (lt z hz)).length_le
    simp at this
    omega
  · intro z hz
    have hk : h.kids p = [] := (C.wf.fresh p (by omega)).1
    have hs : ∀ n, sameIndexAux n h p i = [] := fun n => by cases n <;> simp [sameIndexAux, hk, pyGet]
    rw [hs] at hz
    simp at hz
    subst hz
    simp [hk, pyGet]

example : sameIndexChildren demo 0 0 true = [0, 1, 4] ∧ sameIndexChildren demo 0 (-1) false = [5] := by decide +kernel

end ITree
