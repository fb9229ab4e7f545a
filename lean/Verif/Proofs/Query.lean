import Verif.Model.Query
import Verif.Proofs.Steps3
import Verif.Spec.Numbered
/-
Lemmas about the enumerations and queries of `Model/Query`.
-/
namespace ITree

theorem bump_spec {cs : List (Tag × Nat)} {t : Tag} {n : Nat} (hl : cs.lookup t = some n) :
    ∃ cs', bump cs t = some (n, cs') ∧ ∀ s, cs'.lookup s = if s = t then some (n + 1) else cs.lookup s := by
  induction cs with
  | nil => simp at hl
  | cons e r ih =>
    obtain ⟨t', m⟩ := e
    simp only [List.lookup_cons] at hl
    by_cases ht : t' = t
    · subst ht
      simp only [beq_self_eq_true, Option.some.injEq] at hl
      subst hl
      refine ⟨(t', m + 1) :: r, by simp [bump], fun s => ?_⟩
      simp only [List.lookup_cons]
      by_cases hs : s = t'
      · subst hs; simp
      · have e2 : (s == t') = false := beq_eq_false_iff_ne.2 hs
        simp only [e2, if_neg hs]
    · have : (t == t') = false := by simpa using fun e => ht e.symm
      simp only [this] at hl
      obtain ⟨cs', h1, h2⟩ := ih hl
      refine ⟨(t', m) :: cs', by simp [bump, ht, h1], fun s => ?_⟩
      simp only [List.lookup_cons, h2]
      by_cases hs : s = t'
      · subst hs; simp only [beq_self_eq_true, if_neg ht]
      · have e2 : (s == t') = false := beq_eq_false_iff_ne.2 hs
        simp only [e2]

/-- the numbering of a list of items after the items `pre` -/
def numberFrom (tag : Id → Tag) : List Id → List Id → List ((Tag × Nat) × Id)
  | _, [] => []
  | pre, x :: xs => ((tag x, (pre.filter fun y => tag y = tag x).length), x) :: numberFrom tag (pre ++ [x]) xs

theorem itemsLoop_spec (f : Id → Bool) : ∀ (l : List Id) (pre : List Id) (h : Heap) (cs : List (Tag × Nat)),
    (∀ x ∈ l, ∃ r, (h.node x).parent = some r ∧ r.frozen = false ∧ 0 ≤ r.absC) →
    (∀ x ∈ l, cs.lookup (h.tag x) = some ((pre.filter fun y => h.tag y = h.tag x).length)) →
    ∃ h', itemsLoop f h l cs = (h', .ok ((numberFrom h.tag pre l).filter fun e => f e.2)) ∧ CEq h h' := by
  intro l
  induction l with
  | nil => intro pre h cs _ _; exact ⟨h, rfl, CEq.refl h⟩
  | cons x xs ih =>
    intro pre h cs hs hc
    obtain ⟨r, hr, hf, ha⟩ := hs x (by simp)
    obtain ⟨cs', b1, b2⟩ := bump_spec (hc x (by simp))
    generalize hn : (pre.filter fun y => h.tag y = h.tag x).length = n at b1 b2
    have C1 : CEq h (h.setParent x (some { r with famC := (n : Int) })) := CEq.setRef hr rfl rfl ha (by simp)
    generalize hh : h.setParent x (some { r with famC := (n : Int) }) = h1 at C1
    have et : h1.tag = h.tag := funext C1.tag
    obtain ⟨h', e, C⟩ := ih (pre ++ [x]) h1 cs' (fun y hy => by
        obtain ⟨r', g1, g2, g3⟩ := hs y (by simp [hy])
        obtain ⟨r'', k1, k2, k3, k4, k5⟩ := C1.parent_some g1
        exact ⟨r'', k1, by rw [k3, g2], k4 g3⟩)
      (fun y hy => by
        rw [et, b2]
        have := hc y (by simp [hy])
        rw [List.filter_append]
        by_cases ey : h.tag y = h.tag x
        · rw [if_pos ey, ey]; simp [hn]
        · rw [if_neg ey, this]; simp [show ¬ h.tag x = h.tag y from fun e => ey e.symm])
    refine ⟨h', ?_, C1.trans C⟩
    rw [hf] at hh
    simp only [itemsLoop, b1, hr, hf, hh, e, et, numberFrom, List.filter_cons, hn]
    simp only [Bool.false_eq_true, if_false]

theorem numberFrom_eq (tag : Id → Tag) : ∀ (l pre : List Id), numberFrom tag pre l =
    l.zipIdx.map fun e => ((tag e.1, ((pre ++ l.take e.2).filter fun y => tag y = tag e.1).length), e.1) := by
  intro l
  induction l with
  | nil => intro pre; rfl
  | cons x xs ih =>
    intro pre
    simp only [numberFrom, ih, List.zipIdx_cons, List.map_cons, List.take_zero, List.append_nil]
    congr 1
    rw [List.zipIdx_succ, List.map_map]
    refine List.map_congr_left fun e _ => ?_
    simp

theorem pos_unique {l : List Id} (hn : l.Nodup) {x : Id} {n : Nat} (h : l[n]? = some x) : l.idxOf x = n := by
  obtain ⟨h1, h2⟩ := List.getElem?_eq_some_iff.1 h
  subst h2
  exact hn.idxOf_getElem n h1

theorem idxAll_spec {p : Id} : ∀ (l : List Id) (h : Heap), WF h → (∀ x ∈ l, x ∈ h.kids p) →
    ∃ h', idxAll h l = (h', .ok (l.map fun x => (((h.kids p).idxOf x : Int), x))) ∧ CEq h h' := by
  intro l
  induction l with
  | nil => intro h _ _; exact ⟨h, rfl, CEq.refl h⟩
  | cons x xs ih =>
    intro h W hl
    obtain ⟨n, e1, e2⟩ := idx_child W (hl x (by simp))
    have C := idx_ceq h x
    have hp := pos_unique (W.kids_nodup p) e2
    obtain ⟨h', e3, C'⟩ := ih (h.idx x).1 (C.wf W) (fun y hy => by rw [C.kids]; exact hl y (by simp [hy]))
    refine ⟨h', ?_, C.trans C'⟩
    simp only [idxAll, e1, e3, List.map_cons, C.kids, hp]

/-- children that are the first (last) of their family -/
def famEnds (h : Heap) (p : Id) (last : Bool) : List Id :=
  (h.kids p).filter fun c => (if last then (famView h p (h.tag c)).getLast? else (famView h p (h.tag c)).head?) = some c

theorem famEnds_sorted {h : Heap} (W : WF h) (p : Id) (last : Bool) :
    (famEnds h p last).Pairwise fun a b => (h.kids p).idxOf a < (h.kids p).idxOf b := by
  refine List.Pairwise.sublist List.filter_sublist ?_
  rw [List.pairwise_iff_getElem]
  intro i j hi hj hij
  rw [(W.kids_nodup p).idxOf_getElem i hi, (W.kids_nodup p).idxOf_getElem j hj]
  exact hij

/-- the first or last element -/
def endOf (last : Bool) (l : List Id) : Option Id := if last then l.getLast? else l.head?

theorem endOf_mem {last : Bool} {l : List Id} {x : Id} (h : endOf last l = some x) : x ∈ l := by
  unfold endOf at h; split at h
  · exact List.mem_of_getLast? h
  · exact List.mem_of_head? h
theorem endOf_some {last : Bool} {l : List Id} (h : l ≠ []) : ∃ x, endOf last l = some x := by
  unfold endOf; split
  · exact ⟨_, List.getLast?_eq_some_getLast h⟩
  · exact ⟨_, List.head?_eq_some_head h⟩

theorem FamOK.mem {h : Heap} {p : Id} {F : Fams} (O : FamOK h p F) {e : Tag × List Id} (he : e ∈ F) : e.2 = famView h p e.1 ∧ famView h p e.1 ≠ [] := by
  have h1 : F.get? e.1 = some e.2 := by
    have := O.keys
    clear O
    induction F with
    | nil => simp at he
    | cons a r ih =>
      obtain ⟨k, v⟩ := a
      simp only [List.map_cons, List.nodup_cons] at this
      rcases List.mem_cons.1 he with rfl | he
      · simp [Fams.get?]
      · have hne : (e.1 == k) = false := by
          refine beq_eq_false_iff_ne.2 fun e' => this.1 ?_
          rw [← e']; exact List.mem_map_of_mem he
        simp only [Fams.get?, List.lookup_cons, hne]
        exact ih he this.2
  rw [O.get] at h1
  split at h1
  · cases h1
  · next hne => exact ⟨(Option.some.inj h1).symm, hne⟩

theorem FamOK.key {h : Heap} {p : Id} {F : Fams} (O : FamOK h p F) {t : Tag} (ht : famView h p t ≠ []) : (t, famView h p t) ∈ F := by
  have h1 := O.get t
  rw [if_neg ht] at h1
  have : ∀ (F : Fams) l, F.get? t = some l → (t, l) ∈ F := by
    intro F l
    induction F with
    | nil => simp [Fams.get?]
    | cons a r ih =>
      obtain ⟨k, v⟩ := a
      simp only [Fams.get?, List.lookup_cons]
      cases hk : t == k with
      | true => simp only [Option.some.injEq]; rintro rfl; simp [eq_of_beq hk]
      | false => intro e; exact List.mem_cons_of_mem _ (ih e)
  exact this _ _ h1

theorem mem_famView {h : Heap} {p : Id} {t : Tag} {c : Id} : c ∈ famView h p t ↔ c ∈ h.kids p ∧ h.tag c = t := by
  simp [famView]

theorem mapM_some_iff {α β : Type} {f : α → Option β} : ∀ {l : List α}, (∀ a ∈ l, ∃ b, f a = some b) → ∃ r, l.mapM f = some r ∧ l.map f = r.map some := by
  intro l
  induction l with
  | nil => intro _; exact ⟨[], rfl, rfl⟩
  | cons a l ih =>
    intro hl
    obtain ⟨b, hb⟩ := hl a (by simp)
    obtain ⟨r, h1, h2⟩ := ih fun x hx => hl x (by simp [hx])
    exact ⟨b :: r, by simp [List.mapM_cons, hb, h1], by simp [hb, h2]⟩

theorem famReps_spec {h : Heap} (W : WF h) {p : Id} {F : Fams} (O : FamOK h p F) (last : Bool) :
    ∃ h', famReps h F last = (h', .ok (famEnds h p last)) ∧ CEq h h' := by
  obtain ⟨l, e1, e2⟩ := mapM_some_iff (f := fun e : Tag × List Id => if last then e.2.getLast? else e.2.head?) (l := F) (by
    intro e he
    obtain ⟨a, b⟩ := O.mem he
    rw [← a] at b
    exact endOf_some (last := last) b)
  have hmem : ∀ x, x ∈ l ↔ x ∈ famEnds h p last := by
    intro x
    have : x ∈ l ↔ some x ∈ l.map some := by simp
    rw [this, ← e2]
    simp only [List.mem_map, famEnds, List.mem_filter, decide_eq_true_eq]
    constructor
    · rintro ⟨e, he, hx⟩
      have hx : endOf last e.2 = some x := hx
      obtain ⟨a, b⟩ := O.mem he
      have hm := endOf_mem hx
      rw [a, mem_famView] at hm
      refine ⟨hm.1, ?_⟩
      rw [hm.2, ← a]; exact hx
    · rintro ⟨hx, he⟩
      refine ⟨(h.tag x, famView h p (h.tag x)), O.key ?_, he⟩
      exact List.ne_nil_of_mem (mem_famView.2 ⟨hx, rfl⟩)
  have hnd : l.Nodup := by
    have htag : (l.map h.tag) = F.map Prod.fst := by
      have : (l.map some).map (Option.map h.tag) = (F.map fun e => if last then e.2.getLast? else e.2.head?).map (Option.map h.tag) := by rw [e2]
      have h3 : ∀ e ∈ F, Option.map h.tag (if last then e.2.getLast? else e.2.head?) = some e.1 := by
        intro e he
        obtain ⟨a, b⟩ := O.mem he
        rw [← a] at b
        obtain ⟨x, hx⟩ := endOf_some (last := last) b
        have hm := endOf_mem hx
        rw [a, mem_famView] at hm
        show Option.map h.tag (endOf last e.2) = _
        rw [hx]; simp [hm.2]
      rw [List.map_map, List.map_map] at this
      have h4 : List.map (Option.map h.tag ∘ fun e : Tag × List Id => if last then e.2.getLast? else e.2.head?) F = F.map fun e => some e.1 :=
        List.map_congr_left h3
      rw [h4] at this
      have : (l.map h.tag).map some = (F.map Prod.fst).map some := by simpa [Function.comp_def] using this
      exact List.map_injective_iff.2 (Option.some_injective _) this
    have := O.keys
    rw [← htag] at this
    exact this.of_map
  obtain ⟨h', e3, C⟩ := idxAll_spec (p := p) l h W (fun x hx => by have := (hmem x).1 hx; simp only [famEnds, List.mem_filter] at this; exact this.1)
  refine ⟨h', ?_, C⟩
  simp only [famReps, e1, e3]
  congr 2
  generalize hkl : (l.map fun x => (((h.kids p).idxOf x : Int), x)) = kl
  have hp : (kl.mergeSort fun a b => decide (a.1 ≤ b.1)).Perm kl := List.mergeSort_perm _ _
  have hs : (kl.mergeSort fun a b => decide (a.1 ≤ b.1)).Pairwise fun a b => decide (a.1 ≤ b.1) = true :=
    List.pairwise_mergeSort (fun a b c h1 h2 => by simp only [decide_eq_true_eq] at *; omega) (fun a b => by simp; omega) kl
  generalize (kl.mergeSort fun a b => decide (a.1 ≤ b.1)) = sl at hp hs
  have hx : ∀ e ∈ sl, e.1 = ((h.kids p).idxOf e.2 : Int) := by
    intro e he
    have := hp.mem_iff.1 he
    rw [← hkl] at this
    obtain ⟨x, _, rfl⟩ := List.mem_map.1 this
    rfl
  have hp2 : (sl.map Prod.snd).Perm (famEnds h p last) := by
    have a : (sl.map Prod.snd).Perm l := by
      have := hp.map Prod.snd
      rw [← hkl, List.map_map] at this
      simpa [Function.comp_def] using this
    refine a.trans ?_
    exact (List.perm_ext_iff_of_nodup hnd ((W.kids_nodup p).filter _)).2 hmem
  refine hp2.eq_of_pairwise (le := fun a b => (h.kids p).idxOf a ≤ (h.kids p).idxOf b) ?_ ?_ ?_
  · intro a b ha hb h1 h2
    have hb := hb
    have ma : a ∈ h.kids p := (List.mem_filter.1 (hp2.mem_iff.1 ha)).1
    have mb : b ∈ h.kids p := (List.mem_filter.1 hb).1
    exact (List.idxOf_inj ma).1 (by omega)
  · rw [List.pairwise_map]
    refine hs.imp_of_mem fun {a b} ha hb hab => ?_
    have := hx a ha; have := hx b hb
    simp only [decide_eq_true_eq] at hab
    omega
  · exact (famEnds_sorted W p last).imp fun h => Nat.le_of_lt h

theorem numbered_items (h : Heap) (p : Id) : (numbered h p).map Prod.snd = h.kids p := by
  simp only [numbered, List.map_map, Function.comp_def]
  exact List.zipIdx_map_fst 0 _

theorem filter_take_get {l : List Id} {q : Id → Bool} : ∀ {i : Nat} {x : Id}, l[i]? = some x → q x = true →
    (l.filter q)[((l.take i).filter q).length]? = some x := by
  induction l with
  | nil => intro i x h; simp at h
  | cons a l ih =>
    intro i x h hq
    cases i with
    | zero => simp at h; subst h; simp [hq]
    | succ i =>
      simp only [List.getElem?_cons_succ] at h
      have := ih h hq
      simp only [List.take_succ_cons, List.filter_cons]
      cases q a <;> simp [this]

theorem items_ok {h : Heap} (W : WF h) {p : Id} (hf : (h.node p).fams ≠ none) (f : Id → Bool) :
    ∃ h', itemsOf h p f = (h', .ok ((numbered h p).filter fun e => f e.2)) ∧ CEq h h' := by
  cases hF : (h.node p).fams with
  | none => exact absurd hF hf
  | some F =>
    obtain ⟨h', e, C⟩ := itemsLoop_spec f (h.kids p) [] h (F.map fun e => (e.1, 0)) (fun x hx => by
        obtain ⟨r, a, _, b, c, _⟩ := W.kid_parent p x hx; exact ⟨r, a, b, c⟩)
      (fun x hx => by
        have hk : h.kids p ≠ [] := List.ne_nil_of_mem hx
        obtain ⟨F', a, O⟩ := W.fams_ok p hk
        rw [hF] at a; cases a
        have m := O.key (t := h.tag x) (List.ne_nil_of_mem (mem_famView.2 ⟨hx, rfl⟩))
        have hm : ∀ (F : Fams) t l, (t, l) ∈ F → (F.map fun e => (e.1, 0)).lookup t = some 0 := by
          intro F t l
          induction F with
          | nil => simp
          | cons a r ih =>
            obtain ⟨k, v⟩ := a
            intro hm
            simp only [List.map_cons, List.lookup_cons]
            cases hk : t == k with
            | true => rfl
            | false =>
              rcases List.mem_cons.1 hm with e | hm
              · cases e; simp at hk
              · exact ih hm
        simpa using hm F _ _ m)
    refine ⟨h', ?_, C⟩
    simp only [itemsOf, hF, e, numberFrom_eq, List.nil_append]
    rfl

end ITree
