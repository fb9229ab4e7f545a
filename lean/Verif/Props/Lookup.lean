import Verif.Proofs.Slice
import Verif.Props.Positions
/-
C20: lookup by index, slice and key.
-/
namespace ITree

/-- children carrying a tag, in item order -/
abbrev withTag (h : Heap) (p : Id) (g : Tag) : List Id := (h.kids p).filter fun c => h.tag c = g

/-- C20. `t[i]` for `0 ≤ i < len(t)` is the i-th child, for `-len(t) ≤ i < 0` the child `len(t) + i`. -/
theorem C20_index (h : Heap) (p : Id) (i : Int) (n : Nat) (hn : n < (h.kids p).length) (hi : i = n ∨ i = (n : Int) - (h.kids p).length) :
    getItem h p (.int i) = .ok (.one ((h.kids p)[n])) := by
  have hk : h.kids p ≠ [] := by intro e; rw [e] at hn; simp at hn
  have hg : pyGet (h.kids p) i = some ((h.kids p)[n]) := by
    rw [pyGet_eq, pyPos_iff hn hi]; simp
  simp only [getItem, if_neg hk, getItem1, hg]

example : getItem demo 0 (.int (-2)) = .ok (.one 3) := C20_index demo 0 (-2) 2 (by decide) (by right; decide)

theorem fallback_int {h : Heap} (W : WF h) {p : Id} (hk : h.kids p ≠ []) (tg : Target) (t : Tag) (ht : tg.asTag = some t) (e : Err) :
    fallbackTag ((h.boundFams p).getD []) tg e = if withTag h p t = [] then .error e else .ok (.many (withTag h p t)) := by
  obtain ⟨F, hb, hf, hO⟩ := W.bound hk
  simp only [fallbackTag, ht, hb, Option.getD_some, hO.get]
  show (match (if famView h p t = [] then none else some (famView h p t)) with | some l => Except.ok (GetRes.many l) | none => Except.error e) =
    if famView h p t = [] then Except.error e else Except.ok (GetRes.many (famView h p t))
  by_cases he : famView h p t = [] <;> simp [he]

/-- C20. An index out of range never delivers a wrong item: it raises IndexError, unless the number is itself used as a tag of children – then exactly the
children with this tag are delivered. An item without children raises KeyError. -/
theorem C20_index_miss {ms : ModelSet} {h : Heap} (R : Reach ms h) (p : Id) (i : Int)
    (hi : i < -((h.kids p).length : Int) ∨ ((h.kids p).length : Int) ≤ i) :
    getItem h p (.int i) = if h.kids p = [] then .error .key else if withTag h p (.int i) = [] then .error .index else .ok (.many (withTag h p (.int i))) := by
  by_cases hk : h.kids p = []
  · simp [getItem, hk]
  · have hg : pyGet (h.kids p) i = none := by
      simp only [pyGet]; split
      · exact List.getElem?_eq_none (by omega)
      · split
        · omega
        · rfl
    simp only [getItem, if_neg hk, getItem1, hg]
    exact fallback_int R.core.wf hk _ _ rfl _

example : getItem demo 0 (.int 4) = .error .index := by rw [C20_index_miss demo_tidy.reach _ _ (by decide)]; decide

/-- C20. `t[a:b:c]` is the list slice of the children (see `IsSlice`), a zero step raises ValueError, an item without children KeyError. -/
theorem C20_slice (h : Heap) (p : Id) (s : PySlice) (hk : h.kids p ≠ []) :
    (s.step = some 0 → getItem h p (.slice s) = .error .value) ∧
    (s.step ≠ some 0 → ∃ r, getItem h p (.slice s) = .ok (.many r) ∧ IsSlice (h.kids p) s r) := by
  simp only [getItem, if_neg hk, getItem1]
  constructor
  · intro e; rw [pySlice_none.2 e]
  · intro e
    cases hs : pySlice (h.kids p) s with
    | none => exact absurd (pySlice_none.1 hs) e
    | some r => exact ⟨r, rfl, pySlice_isSlice hs⟩

example : getItem demo 0 (.slice ⟨none, none, some (-2)⟩) = .ok (.many [5, 2]) := by decide
example : IsSlice [1, 2, 3, 5] ⟨none, none, some (-2)⟩ [5, 2] := pySlice_isSlice (by decide)

/-- C20. `t[(g, a:b:c)]` is the list slice of the children with tag `g`. -/
theorem C20_key_slice {ms : ModelSet} {h : Heap} (R : Reach ms h) (p : Id) (g : Tag) (s : PySlice) (hg : withTag h p g ≠ []) (hs : s.step ≠ some 0) :
    ∃ r, getItem h p (.key g (.slice s)) = .ok (.many r) ∧ IsSlice (withTag h p g) s r := by
  have W := R.core.wf
  have hk : h.kids p ≠ [] := by intro e; exact hg (by simp [withTag, e])
  obtain ⟨F, hb, hf, hO⟩ := W.bound hk
  have hget := hO.get g
  rw [if_neg (show famView h p g ≠ [] from hg)] at hget
  simp only [getItem, if_neg hk, getItem1, hb, Option.getD_some, getKey, hget]
  cases hsl : pySlice (famView h p g) s with
  | none => exact absurd (pySlice_none.1 hsl) hs
  | some r => exact ⟨r, rfl, pySlice_isSlice hsl⟩

example : getItem demo 0 (.key (.other 1) (.slice ⟨some 1, none, none⟩)) = .ok (.many [3]) := by decide

/-- C20. `t[(g, i)]` for a valid index is the i-th child with tag `g` … -/
theorem C20_key {ms : ModelSet} {h : Heap} (R : Reach ms h) (p : Id) (g : Tag) (i : Int) (n : Nat) (hn : n < (withTag h p g).length)
    (hi : i = n ∨ i = (n : Int) - (withTag h p g).length) : getItem h p (.key g (.int i)) = .ok (.one ((withTag h p g)[n])) := by
  apply C01_family_key_partial R
  show pyGet (withTag h p g) i = _
  rw [pyGet_eq, pyPos_iff hn hi]; simp

/-- … and a miss raises (KeyError for an unknown tag, IndexError for an index out of range), unless the pair itself is a tag of children: then these
are delivered. -/
theorem C20_key_miss {ms : ModelSet} {h : Heap} (R : Reach ms h) (p : Id) (g : Tag) (i : Int) (hk : h.kids p ≠ [])
    (hi : i < -((withTag h p g).length : Int) ∨ ((withTag h p g).length : Int) ≤ i) :
    getItem h p (.key g (.int i)) = if withTag h p (.pair g (.int i)) = [] then .error (if withTag h p g = [] then .key else .index)
      else .ok (.many (withTag h p (.pair g (.int i)))) := by
  have W := R.core.wf
  have hfb := fun e => fallback_int W hk (.key g (.int i)) (.pair g (.int i)) rfl e
  obtain ⟨F, hb, hf, hO⟩ := W.bound hk
  have hget := hO.get g
  simp only [hb, Option.getD_some] at hfb
  simp only [getItem, if_neg hk, getItem1, hb, Option.getD_some, getKey]
  by_cases hg : famView h p g = []
  · rw [if_pos hg] at hget
    simp only [hget, hfb]
    have : withTag h p g = [] := hg
    simp only [this, if_true]
  · rw [if_neg hg] at hget
    have hm : pyGet (famView h p g) i = none := by
      have hi : i < -((famView h p g).length : Int) ∨ ((famView h p g).length : Int) ≤ i := hi
      simp only [pyGet]; split
      · exact List.getElem?_eq_none (by omega)
      · split
        · omega
        · rfl
    have : ¬ withTag h p g = [] := hg
    simp only [hget, hm, hfb, this, if_false]

example : getItem demo 0 (.key (.other 1) (.int 2)) = .error .index := by rw [C20_key_miss demo_tidy.reach _ _ _ (by decide) (by decide)]; decide
example : getItem demo 0 (.key (.other 8) (.int 0)) = .error .key := by rw [C20_key_miss demo_tidy.reach _ _ _ (by decide) (by decide)]; decide

/-- C20. Every kind of lookup only delivers children of the item. -/
theorem C20_only_children {ms : ModelSet} {h : Heap} (R : Reach ms h) (p : Id) : ∀ (tg : Target),
    (∀ x, getItem h p tg = .ok (.one x) → x ∈ h.kids p) ∧ (∀ l, getItem h p tg = .ok (.many l) → ∀ x ∈ l, x ∈ h.kids p) := by
  have W := R.core.wf
  by_cases hk : h.kids p = []
  · intro tg; constructor <;> intro x e <;> cases tg <;> simp [getItem, hk] at e
  obtain ⟨F, hb, hf, hO⟩ := W.bound hk
  have hfam : ∀ t l, F.get? t = some l → ∀ x ∈ l, x ∈ h.kids p := by
    intro t l e x hx
    rw [hO.get] at e
    split at e
    · simp at e
    · simp at e; subst e; exact (List.mem_filter.1 hx).1
  have hmapG : ∀ (l : List Id) (is : List Int) r, is.mapM (pyGet l) = some r → ∀ x ∈ r, x ∈ l := by
    intro l is
    induction is with
    | nil => intro r e; simp at e; subst e; simp
    | cons i is ih =>
      intro r e
      simp only [List.mapM_cons, Option.bind_eq_bind, Option.bind_eq_some_iff, Option.pure_def, Option.some.injEq] at e
      obtain ⟨a, e1, b, e2, rfl⟩ := e
      intro x hx
      rcases List.mem_cons.1 hx with rfl | hx
      · exact pyGet_mem e1
      · exact ih b e2 x hx
  have hfb : ∀ tg e, (∀ x, fallbackTag F tg e = .ok (.one x) → x ∈ h.kids p) ∧ (∀ l, fallbackTag F tg e = .ok (.many l) → ∀ x ∈ l, x ∈ h.kids p) := by
    intro tg e
    simp only [fallbackTag]
    constructor
    · intro x; split <;> (try split) <;> simp
    · intro l; split
      · split
        · next t _ l' hl => simp; rintro rfl; exact hfam _ _ hl
        · simp
      · simp
  have hsl : ∀ (l : List Id) s r, pySlice l s = some r → ∀ x ∈ r, x ∈ l := by
    intro l s r e x hx
    simp only [pySlice, Option.map_eq_some_iff] at e
    obtain ⟨ix, _, rfl⟩ := e
    obtain ⟨i, _, hi⟩ := List.mem_filterMap.1 hx
    exact List.mem_of_getElem? hi
  have h1 : ∀ tg, (∀ x, getItem1 h p tg = .ok (.one x) → x ∈ h.kids p) ∧ (∀ l, getItem1 h p tg = .ok (.many l) → ∀ x ∈ l, x ∈ h.kids p) := by
    intro tg
    cases tg with
    | int i =>
      simp only [getItem1, hb, Option.getD_some]
      split
      · next y hy => simp; exact pyGet_mem hy
      · exact hfb _ _
    | slice s =>
      simp only [getItem1]
      split
      · next l hl => simp; exact hsl _ _ _ hl
      · simp
    | key g sel =>
      simp only [getItem1, hb, Option.getD_some, getKey]
      split
      · exact hfb _ _
      · next fam hfm =>
        have hin := hfam _ _ hfm
        cases sel with
        | dots => simp; exact hin
        | int i => dsimp only; split
                   · next y hy => simp; exact hin _ (pyGet_mem hy)
                   · exact hfb _ _
        | slice s => dsimp only; split
                     · next y hy => simp; exact fun x hx => hin _ (hsl _ _ _ hy x hx)
                     · exact hfb _ _
        | list l => dsimp only; split
                    · next y hy => simp; exact fun x hx => hin _ (hmapG _ _ _ hy x hx)
                    · exact hfb _ _
        | other t =>
          dsimp only; split
          · split
            · next y hy => simp; exact fun x hx => hin _ (hmapG _ _ _ hy x hx)
            · exact hfb _ _
          · exact hfb _ _
    | tag t =>
      simp only [getItem1, hb, Option.getD_some]
      split
      · next l hl => simp; exact hfam _ _ hl
      · simp
    | tags ts =>
      simp only [getItem1, hb, Option.getD_some]
      have : ∀ (ts : List Tag) ls, ts.mapM F.get? = some ls → ∀ x ∈ ls.flatten, x ∈ h.kids p := by
        intro ts
        induction ts with
        | nil => intro r e; simp at e; subst e; simp
        | cons i is ih =>
          intro r e
          simp only [List.mapM_cons, Option.bind_eq_bind, Option.bind_eq_some_iff, Option.pure_def, Option.some.injEq] at e
          obtain ⟨a, e1, b, e2, rfl⟩ := e
          intro x hx
          rw [List.flatten_cons] at hx
          rcases List.mem_append.1 hx with hx | hx
          · exact hfam _ _ e1 x hx
          · exact ih b e2 x hx
      split
      · next ls hls =>
        split
        · simp
        · simp only [Except.ok.injEq, GetRes.many.injEq, reduceCtorEq, false_imp_iff, implies_true, true_and, forall_eq']
          exact this ts ls hls
      · simp
    | dots => simp [getItem1]
    | filter f => simp only [getItem1, Except.ok.injEq, GetRes.many.injEq, reduceCtorEq, false_imp_iff, implies_true, true_and, forall_eq']
                  exact fun x hx => (List.mem_filter.1 hx).1
    | item i => simp [getItem1]
    | list l => simp [getItem1]
  have hlist : ∀ (n : Nat) tg, sizeOf tg ≤ n → (∀ x, getItem h p tg = .ok (.one x) → x ∈ h.kids p) ∧
      (∀ l, getItem h p tg = .ok (.many l) → ∀ x ∈ l, x ∈ h.kids p) := by
    intro n
    induction n with
    | zero => intro tg hn; cases tg <;> simp at hn
    | succ n ih =>
      intro tg hn
      cases tg with
      | list ts =>
        have hts : ∀ (ts : List Target), (∀ t ∈ ts, sizeOf t ≤ n) → ∀ r, getItems h p ts = .ok r → ∀ x ∈ r, x ∈ h.kids p := by
          intro ts
          induction ts with
          | nil => intro _ r e; simp [getItems] at e; subst e; simp
          | cons t ts iht =>
            intro hs r e
            simp only [getItems] at e
            split at e
            · simp at e
            · next g hg =>
              split at e
              · simp at e
              · next rs hrs =>
                simp only [Except.ok.injEq] at e
                subst e
                intro x hx
                have := ih t (hs t (by simp))
                rcases List.mem_append.1 hx with hx | hx
                · cases g with
                  | one y => simp at hx; subst hx; exact this.1 _ hg
                  | many l => exact this.2 _ hg x hx
                · exact iht (fun t ht => hs t (by simp [ht])) rs hrs x hx
        have hsz : ∀ t ∈ ts, sizeOf t ≤ n := by
          intro t ht
          have := List.sizeOf_lt_of_mem ht
          simp at hn
          omega
        simp only [getItem, if_neg hk]
        split
        · next r hr =>
          split
          · simp
          · simp only [Except.ok.injEq, GetRes.many.injEq, reduceCtorEq, false_imp_iff, implies_true, true_and, forall_eq']
            exact hts ts hsz r hr
        · simp
      | _ => simp only [getItem, if_neg hk]; exact h1 _
  exact fun tg => hlist _ tg (Nat.le_refl _)

example : getItem demo 0 (.list [.int 0, .tag (.other 2)]) = .ok (.many [1, 2]) := by decide +kernel

end ITree
