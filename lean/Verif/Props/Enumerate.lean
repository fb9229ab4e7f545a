import Verif.Proofs.Query
import Verif.Props.Lookup
/-
C44: keys, items, values, tags, iter_families.
-/
namespace ITree

variable {ms : ModelSet} {h : Heap}

/-- C44. `list(t.items(filter))` is, in item order, every child accepted by the filter together with its key (tag, number among the children with that tag); the filter does not change the
numbers.  Reading changes nothing observable. (`items(values_only=True)` is the same list with the values of the items.)  The item must have had children once, see `C44_never_filled`. -/
theorem C44_items_partial (R : Reach ms h) {p : Id} (hf : (h.node p).fams ≠ none) (f : Id → Bool) :
    ∃ h', itemsOf h p f = (h', .ok ((numbered h p).filter fun e => f e.2)) ∧ Unchanged h h' := by
  obtain ⟨h', e, C⟩ := items_ok R.core.wf hf f
  exact ⟨h', e, C.unchanged⟩

/-- C44. `list(t.keys(filter))` -/
theorem C44_keys_partial (R : Reach ms h) {p : Id} (hf : (h.node p).fams ≠ none) (f : Id → Bool) :
    ∃ h', keysOf h p f = (h', .ok (((numbered h p).filter fun e => f e.2).map Prod.fst)) ∧ Unchanged h h' := by
  obtain ⟨h', e, C⟩ := items_ok R.core.wf hf f
  exact ⟨h', by simp [keysOf, e, Except.map], C.unchanged⟩

/-- C44. every child is enumerated exactly once and in order -/
theorem C44_numbered_items (h : Heap) (p : Id) : (numbered h p).map Prod.snd = h.kids p := by
  exact numbered_items h p

/-- C44, C20. every key delivered leads back to its item -/
theorem C44_C20_key_leads_back (R : Reach ms h) {p c : Id} {t : Tag} {n : Nat} (hm : ((t, n), c) ∈ numbered h p) :
    getItem h p (.key t (.int n)) = .ok (.one c) := by
  simp only [numbered, List.mem_map, Prod.mk.injEq] at hm
  obtain ⟨⟨x, i⟩, hi, ⟨rfl, rfl⟩, rfl⟩ := hm
  have hx : (h.kids p)[i]? = some x := List.mem_zipIdx_iff_getElem?.1 hi
  have hg := filter_take_get (q := fun y => decide (h.tag y = h.tag x)) hx (by simp)
  obtain ⟨a, b⟩ := List.getElem?_eq_some_iff.1 hg
  have := C20_key R p (h.tag x) _ _ a (.inl rfl)
  rw [this]
  simp only [b]

/-- C44. the keys of different children differ -/
theorem C44_keys_distinct (R : Reach ms h) (p : Id) : ((numbered h p).map Prod.fst).Nodup := by
  have h1 : ((numbered h p).map Prod.snd).Nodup := by rw [C44_numbered_items]; exact R.core.wf.kids_nodup p
  rw [List.nodup_map_iff_inj_on h1.of_map]
  rintro ⟨⟨t, n⟩, c⟩ hc ⟨⟨t', n'⟩, c'⟩ hc' e
  simp only [Prod.mk.injEq] at e
  obtain ⟨rfl, rfl⟩ := e
  have a := C44_C20_key_leads_back R hc
  rw [C44_C20_key_leads_back R hc'] at a
  cases a
  rfl

/-- C44. `list(t.values(filter))` are the values of the items delivered by `t.items(filter)`, in the same order -/
theorem C44_values (h : Heap) (p : Id) (f : Id → Bool) :
    valuesOf h p f = ((numbered h p).filter fun e => f e.2).map fun e => (h.node e.2).value := by
  have : (h.kids p).filter f = ((numbered h p).filter fun e => f e.2).map Prod.snd := by
    rw [show (fun e : (Tag × Nat) × Id => f e.2) = f ∘ Prod.snd from rfl, ← List.filter_map, C44_numbered_items]
  rw [valuesOf, this, List.map_map]; rfl

/-- the children that are the first of their tag (`last = false`) or the last of their tag (`last = true`), in item order -/
def ends (h : Heap) (p : Id) (last : Bool) : List Id :=
  (h.kids p).filter fun c => (if last then (withTag h p (h.tag c)).getLast? else (withTag h p (h.tag c)).head?) = some c

/-- C44. `list(t.iter_families(filter, order_last))` for an item with children: the families in the order of their first (last) members, each with its tag and exactly the accepted children carrying this tag in item
order. Nothing observable changes. -/
theorem C44_iter_families_partial (R : Reach ms h) {p : Id} (hk : h.kids p ≠ []) (f : Id → Bool) (last : Bool) :
    ∃ h', iterFamilies h p f last = (h', .ok (some ((ends h p last).map fun c => (h.tag c, (withTag h p (h.tag c)).filter f)))) ∧ Unchanged h h' := by
  have W := R.core.wf
  obtain ⟨F, hb, hF, O⟩ := W.bound hk
  obtain ⟨h', e, C⟩ := famReps_spec W O last
  refine ⟨h', ?_, C.unchanged⟩
  simp only [iterFamilies, if_neg hk, hF, e, C.boundFams, hb, Option.getD_some, C.tag]
  have : (famEnds h p last).mapM (fun i => (F.get? (h.tag i)).map fun fam => (h.tag i, fam.filter f)) =
      some ((ends h p last).map fun c => (h.tag c, (withTag h p (h.tag c)).filter f)) := by
    show _ = some ((famEnds h p last).map _)
    have hm : ∀ c ∈ famEnds h p last, (F.get? (h.tag c)).map (fun fam => (h.tag c, fam.filter f)) = some (h.tag c, (withTag h p (h.tag c)).filter f) := by
      intro c hc
      have hc := (List.mem_filter.1 hc).1
      rw [O.get, if_neg (List.ne_nil_of_mem (mem_famView.2 ⟨hc, rfl⟩))]
      rfl
    revert hm
    generalize famEnds h p last = l
    induction l with
    | nil => intro _; rfl
    | cons a l ih =>
      intro hm
      simp [List.mapM_cons, hm a (by simp), ih fun c hc => hm c (by simp [hc])]
  rw [this]

/-- C44. an item without children delivers None instead of an iterator -/
theorem C44_iter_families_none (h : Heap) {p : Id} (hk : h.kids p = []) (f : Id → Bool) (last : Bool) : iterFamilies h p f last = (h, .ok none) := by
  simp [iterFamilies, hk]

/-- C44. `list(t.iter_family_items(order_last))` -/
theorem C44_iter_family_items (R : Reach ms h) {p : Id} (last : Bool) :
    ∃ h', iterFamilyItems h p last = (h', .ok ((ends h p last).flatMap fun c => withTag h p (h.tag c))) ∧ Unchanged h h' := by
  by_cases hk : h.kids p = []
  · refine ⟨h, ?_, Frame.refl _ _ _⟩
    simp [iterFamilyItems, iterFamilies, hk, Except.map, ends]
  · obtain ⟨h', e, U⟩ := C44_iter_families_partial R hk (fun _ => true) last
    refine ⟨h', ?_, U⟩
    simp only [iterFamilyItems, e, Except.map, List.map_map, Function.comp_def, List.filter_true]
    rfl

theorem ends_single (W : WF h) {p : Id} (last : Bool) (H : ∀ c ∈ h.kids p, withTag h p (h.tag c) = [c]) : ends h p last = h.kids p := by
  refine List.filter_eq_self.2 fun c hc => ?_
  rw [H c hc]; cases last <;> simp

theorem tags_ceq (R : Reach ms h) (p : Id) (last : Bool) : ∃ h', tagsOf h p last = (h', .ok ((ends h p last).map h.tag)) ∧ CEq h h' := by
  have W := R.core.wf
  cases hk : h.kids p with
  | nil => exact ⟨h, by simp [tagsOf, hk, ends], CEq.refl _⟩
  | cons x l =>
    have hne : h.kids p ≠ [] := by simp [hk]
    obtain ⟨F, hb, hF, O⟩ := W.bound hne
    simp only [tagsOf, hk, hF]
    by_cases h1 : (x :: l).length = 1
    · have hl : l = [] := by simpa using h1
      subst hl
      refine ⟨h, ?_, CEq.refl _⟩
      rw [if_pos h1, ends_single W last (fun c hc => by
        rw [hk] at hc; simp at hc; subst hc; simp [withTag, hk]), hk]
      rfl
    · rw [if_neg h1]
      by_cases h2 : F.length = (x :: l).length
      · rw [if_pos h2, ← hk]
        refine ⟨h, ?_, CEq.refl _⟩
        rw [ends_single W last]
        -- as many families as children: all families are singletons
        have hsum : ((h.kids p).map h.tag).dedup.length = (h.kids p).length := by
          have : ((h.kids p).map h.tag).dedup.Perm (F.map Prod.fst) := by
            refine (List.perm_ext_iff_of_nodup (List.nodup_dedup _) O.keys).2 fun t => ?_
            rw [List.mem_dedup]
            constructor
            · intro ht
              obtain ⟨c, hc, rfl⟩ := List.mem_map.1 ht
              exact List.mem_map.2 ⟨_, O.key (List.ne_nil_of_mem (mem_famView.2 ⟨hc, rfl⟩)), rfl⟩
            · intro ht
              obtain ⟨e, he, rfl⟩ := List.mem_map.1 ht
              obtain ⟨c, hc⟩ := List.exists_mem_of_ne_nil _ (O.mem he).2
              rw [mem_famView] at hc
              exact List.mem_map.2 ⟨c, hc.1, hc.2⟩
          rw [this.length_eq, List.length_map, h2, hk]
        have hnd : ((h.kids p).map h.tag).Nodup := by
          have := List.dedup_sublist ((h.kids p).map h.tag)
          have e := this.eq_of_length (by rw [hsum, List.length_map])
          rw [← e]; exact List.nodup_dedup _
        have inj := List.inj_on_of_nodup_map hnd
        intro c hc
        have : ∀ y ∈ h.kids p, (decide (h.tag y = h.tag c)) = (y == c) := by
          intro y hy
          by_cases e : y = c
          · subst e; simp
          · have : ¬ h.tag y = h.tag c := fun e' => e (inj hy hc e')
            simp [this, e]
        rw [withTag, List.filter_congr this]
        have hc1 := (W.kids_nodup p).count (a := c)
        rw [if_pos hc] at hc1
        rw [List.filter_beq, hc1]
        rfl
      · rw [if_neg h2]
        obtain ⟨h', e, C⟩ := famReps_spec W O last
        refine ⟨h', ?_, C⟩
        simp only [e, Except.map, Prod.mk.injEq, true_and, Except.ok.injEq]
        exact List.map_congr_left fun c _ => C.tag c

/-- C44. `list(t.tags(order_last))`: every tag occurring once, in the order of the first (last) children carrying it -/
theorem C44_tags (R : Reach ms h) (p : Id) (last : Bool) : ∃ h', tagsOf h p last = (h', .ok ((ends h p last).map h.tag)) ∧ Unchanged h h' := by
  obtain ⟨h', e, C⟩ := tags_ceq R p last
  exact ⟨h', e, C.unchanged⟩

/-- C44. the tags delivered are exactly the tags of the children, each once -/
theorem C44_tags_complete (R : Reach ms h) (p : Id) (last : Bool) :
    ((ends h p last).map h.tag).Nodup ∧ ∀ t, t ∈ (ends h p last).map h.tag ↔ ∃ c ∈ h.kids p, h.tag c = t := by
  have W := R.core.wf
  constructor
  · rw [List.nodup_map_iff_inj_on (show (ends h p last).Nodup from (W.kids_nodup p).filter _)]
    intro a ha b hb e
    have ha := (List.mem_filter.1 ha).2
    have hb := (List.mem_filter.1 hb).2
    simp only [decide_eq_true_eq] at ha hb
    rw [e, hb] at ha
    exact (Option.some.inj ha).symm
  · intro t
    constructor
    · intro ht
      obtain ⟨c, hc, rfl⟩ := List.mem_map.1 ht
      exact ⟨c, (List.mem_filter.1 hc).1, rfl⟩
    · rintro ⟨c, hc, rfl⟩
      obtain ⟨x, hx⟩ := endOf_some (last := last) (List.ne_nil_of_mem (mem_famView.2 ⟨hc, rfl⟩))
      have hm := endOf_mem hx
      rw [mem_famView] at hm
      refine List.mem_map.2 ⟨x, List.mem_filter.2 ⟨hm.1, ?_⟩, hm.2⟩
      simp only [decide_eq_true_eq]
      rw [hm.2]; exact hx

/-- C44 (defect). `keys()` and `items()` of an item that never had children raise AttributeError instead of delivering nothing -/
theorem C44_never_filled (h : Heap) {p : Id} (hf : (h.node p).fams = none) (f : Id → Bool) :
    itemsOf h p f = (h, .error .attribute) ∧ keysOf h p f = (h, .error .attribute) := by
  simp [keysOf, itemsOf, hf, Except.map]

/-! ### non-vacuity -/

example : numbered demo 0 = [((.other 1, 0), 1), ((.other 2, 0), 2), ((.other 1, 1), 3), ((.noTag, 0), 5)] := by decide +kernel
example : ∃ h', itemsOf demo 0 (fun i => i != 1) = (h', .ok [((.other 2, 0), 2), ((.other 1, 1), 3), ((.noTag, 0), 5)]) ∧ Unchanged demo h' :=
  C44_items_partial demo_tidy.reach (by decide +kernel) _
example : (ends demo 0 false).map demo.tag = [.other 1, .other 2, .noTag] ∧ (ends demo 0 true).map demo.tag = [.other 2, .other 1, .noTag] := by decide +kernel
example : (tagsOf demo 0 true).2 = .ok [.other 2, .other 1, .noTag] := by
  obtain ⟨h', e, _⟩ := C44_tags demo_tidy.reach 0 true
  rw [e]
  show Except.ok _ = _
  congr 1
example : (demo.node 2).fams = none := by decide +kernel

end ITree
