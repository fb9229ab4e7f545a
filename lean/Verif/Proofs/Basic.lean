import Verif.Spec.WF
import Mathlib.Data.List.Basic
import Mathlib.Data.List.Nodup
import Mathlib.Data.List.InsertIdx
namespace ITree

/-! ### heap access lemmas -/
section
variable (h : Heap) (i j p q x : Id)

@[simp] theorem node_modify (f : Node → Node) : (h.modify i f).node j = if j = i then f (h.node j) else h.node j := rfl
@[simp] theorem next_modify (f : Node → Node) : (h.modify i f).next = h.next := rfl
@[simp] theorem next_setParent (r) : (h.setParent i r).next = h.next := rfl
@[simp] theorem next_setItems (r) : (h.setItems i r).next = h.next := rfl
@[simp] theorem next_setFams (r) : (h.setFams i r).next = h.next := rfl

theorem node_setParent (r) : (h.setParent i r).node j = if j = i then { h.node j with parent := r } else h.node j := rfl
theorem node_setItems (r) : (h.setItems i r).node j = if j = i then { h.node j with items := r } else h.node j := rfl
theorem node_setFams (r) : (h.setFams i r).node j = if j = i then { h.node j with fams := some r } else h.node j := rfl

@[simp] theorem kids_setParent (r) : (h.setParent i r).kids j = h.kids j := by
  simp only [Heap.kids, node_setParent]; split <;> rfl
@[simp] theorem kids_setFams (r) : (h.setFams i r).kids j = h.kids j := by
  simp only [Heap.kids, node_setFams]; split <;> rfl
@[simp] theorem kids_setItems (r) : (h.setItems i r).kids j = if j = i then r else h.kids j := by
  simp only [Heap.kids, node_setItems]; split <;> rfl
@[simp] theorem tag_setParent (r) : (h.setParent i r).tag j = h.tag j := by
  simp only [Heap.tag, node_setParent]; split <;> rfl
@[simp] theorem tag_setFams (r) : (h.setFams i r).tag j = h.tag j := by
  simp only [Heap.tag, node_setFams]; split <;> rfl
@[simp] theorem tag_setItems (r) : (h.setItems i r).tag j = h.tag j := by
  simp only [Heap.tag, node_setItems]; split <;> rfl
@[simp] theorem flags_setParent (r) : (h.setParent i r).flags j = h.flags j := by
  simp only [Heap.flags, node_setParent]; split <;> rfl
@[simp] theorem flags_setFams (r) : (h.setFams i r).flags j = h.flags j := by
  simp only [Heap.flags, node_setFams]; split <;> rfl
@[simp] theorem flags_setItems (r) : (h.setItems i r).flags j = h.flags j := by
  simp only [Heap.flags, node_setItems]; split <;> rfl
@[simp] theorem boundFams_setParent (r) : (h.setParent i r).boundFams j = h.boundFams j := by
  simp only [Heap.boundFams, node_setParent]; split <;> rfl
@[simp] theorem boundFams_setItems (r) : (h.setItems i r).boundFams j = h.boundFams j := by
  simp only [Heap.boundFams, node_setItems]; split <;> rfl
@[simp] theorem fams_setParent (r) : ((h.setParent i r).node j).fams = (h.node j).fams := by
  simp only [node_setParent]; split <;> rfl
@[simp] theorem fams_setItems (r) : ((h.setItems i r).node j).fams = (h.node j).fams := by
  simp only [node_setItems]; split <;> rfl
@[simp] theorem fams_setFams (r) : ((h.setFams i r).node j).fams = if j = i then some r else (h.node j).fams := by
  simp only [node_setFams]; split <;> rfl
@[simp] theorem stale_setParent (r) : ((h.setParent i r).node j).stale = (h.node j).stale := by
  simp only [node_setParent]; split <;> rfl
@[simp] theorem stale_setItems (r) : ((h.setItems i r).node j).stale = (h.node j).stale := by
  simp only [node_setItems]; split <;> rfl
@[simp] theorem stale_setFams (r) : ((h.setFams i r).node j).stale = (h.node j).stale := by
  simp only [node_setFams]; split <;> rfl
@[simp] theorem parent_setParent (r) : ((h.setParent i r).node j).parent = if j = i then r else (h.node j).parent := by
  simp only [node_setParent]; split <;> rfl
@[simp] theorem parent_setItems (r) : ((h.setItems i r).node j).parent = (h.node j).parent := by
  simp only [node_setItems]; split <;> rfl
@[simp] theorem parent_setFams (r) : ((h.setFams i r).node j).parent = (h.node j).parent := by
  simp only [node_setFams]; split <;> rfl
@[simp] theorem value_setParent (r) : ((h.setParent i r).node j).value = (h.node j).value := by
  simp only [node_setParent]; split <;> rfl
@[simp] theorem value_setItems (r) : ((h.setItems i r).node j).value = (h.node j).value := by
  simp only [node_setItems]; split <;> rfl
@[simp] theorem value_setFams (r) : ((h.setFams i r).node j).value = (h.node j).value := by
  simp only [node_setFams]; split <;> rfl
@[simp] theorem link_setParent (r) : ((h.setParent i r).node j).link = (h.node j).link := by
  simp only [node_setParent]; split <;> rfl
@[simp] theorem link_setItems (r) : ((h.setItems i r).node j).link = (h.node j).link := by
  simp only [node_setItems]; split <;> rfl
@[simp] theorem link_setFams (r) : ((h.setFams i r).node j).link = (h.node j).link := by
  simp only [node_setFams]; split <;> rfl
end

/-! ### family dictionaries -/

theorem Fams.get?_set (F : Fams) (t t' : Tag) (l : List Id) :
    (F.set t l).get? t' = if t' = t then some l else F.get? t' := by
  induction F with
  | nil => simp [Fams.set, Fams.get?, List.lookup]; split <;> simp_all
  | cons e r ih =>
    obtain ⟨u, m⟩ := e
    simp only [Fams.get?] at ih
    by_cases hu : u = t
    · subst hu; simp only [Fams.set, Fams.get?, if_true, List.lookup_cons]
      by_cases h1 : t' = u
      · simp [h1]
      · have : (t' == u) = false := by simpa using h1
        simp [this, h1]
    · simp only [Fams.set, Fams.get?, if_neg hu, List.lookup_cons]
      by_cases h1 : t' = u
      · subst h1; simp [hu]
      · have : (t' == u) = false := by simpa using h1
        simp only [this, ih]

theorem Fams.get?_del (F : Fams) (t t' : Tag) :
    (F.del t).get? t' = if t' = t then none else F.get? t' := by
  induction F with
  | nil => simp [Fams.del, Fams.get?]
  | cons e r ih =>
    obtain ⟨u, m⟩ := e
    simp only [Fams.get?, Fams.del] at ih
    by_cases hu : u = t
    · subst hu; simp only [Fams.del, Fams.get?, List.lookup_cons, List.filter_cons]
      simp only [ne_eq, not_true_eq_false, decide_false, Bool.false_eq_true, if_false, ih]
      by_cases h1 : t' = u
      · simp [h1]
      · have : (t' == u) = false := by simpa using h1
        simp [this, h1]
    · simp only [Fams.del, Fams.get?, List.filter_cons, ne_eq, hu, not_false_eq_true, decide_true, if_true, List.lookup_cons]
      by_cases h1 : t' = u
      · subst h1; simp [hu]
      · have : (t' == u) = false := by simpa using h1
        simpa only [this, ne_eq] using ih

theorem Fams.keys_set (F : Fams) (t : Tag) (l : List Id) (hF : (F.map Prod.fst).Nodup) :
    ((F.set t l).map Prod.fst).Nodup := by
  have mem : ∀ (G : Fams) u, u ∈ (G.set t l).map Prod.fst → u = t ∨ u ∈ G.map Prod.fst := by
    intro G u
    induction G with
    | nil => simp [Fams.set]
    | cons e r ih =>
      simp only [Fams.set]; split
      · intro hh; right; simpa using hh
      · intro hh
        simp only [List.map_cons, List.mem_cons] at hh ⊢
        rcases hh with hh | hh
        · right; left; exact hh
        · rcases ih hh with h1 | h1
          · left; exact h1
          · right; right; exact h1
  induction F with
  | nil => simp [Fams.set]
  | cons e r ih =>
    simp only [List.map_cons, List.nodup_cons] at hF
    simp only [Fams.set]; split
    · simpa using hF
    · rename_i hne
      simp only [List.map_cons, List.nodup_cons]
      refine ⟨fun hm => ?_, ih hF.2⟩
      rcases mem r _ hm with h1 | h1
      · exact hne h1
      · exact hF.1 h1

theorem Fams.keys_del (F : Fams) (t : Tag) (hF : (F.map Prod.fst).Nodup) : ((F.del t).map Prod.fst).Nodup :=
  hF.sublist (List.Sublist.map _ List.filter_sublist)

end ITree
