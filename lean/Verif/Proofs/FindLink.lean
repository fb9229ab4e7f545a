import Verif.Model.FindLink
import Verif.Spec.FindLink
import Verif.Proofs.LoadLinks5
/-
`get_target_tree`: a path is accepted exactly if it leads to one item.
-/
namespace ITree

theorem pyGet_iff {l : List Id} {i : Int} {x : Id} : pyGet l i = some x ↔ AtIdx l i x := by
  unfold pyGet AtIdx
  constructor
  · intro h
    split at h
    · next h0 => exact ⟨i.toNat, h, Or.inl (by omega)⟩
    · split at h
      · exact ⟨(i + l.length).toNat, h, Or.inr (by omega)⟩
      · cases h
  · rintro ⟨n, hn, h | h⟩
    · rw [if_pos (by omega)]
      have : i.toNat = n := by omega
      rw [this, hn]
    · have hl := (List.getElem?_eq_some_iff.1 hn).1
      rw [if_neg (by omega), if_pos (by omega)]
      have : (i + l.length).toNat = n := by omega
      rw [this, hn]

/-- one step of a path -/
def StepTo (h : Heap) (p : Id) (t : Tag) (x : Id) : Prop := LeadsTo h p [t] x

theorem leads_cons {h : Heap} {p y : Id} {t : Tag} {ts : List Tag} : LeadsTo h p (t :: ts) y ↔ ∃ x, StepTo h p t x ∧ LeadsTo h x ts y := by
  constructor
  · intro L
    cases L with
    | idx a b => exact ⟨_, .idx a (.here _), b⟩
    | key a b => exact ⟨_, .key a (.here _), b⟩
  · rintro ⟨x, a, b⟩
    cases a with
    | idx a c => cases c; exact .idx a b
    | key a c => cases c; exact .key a b

theorem stepTo_int {h : Heap} {p x : Id} {i : Int} : StepTo h p (.int i) x ↔ pyGet (h.kids p) i = some x := by
  rw [pyGet_iff]
  constructor
  · intro s; cases s with | idx a b => cases b; exact a
  · intro a; exact .idx a (.here _)

theorem stepTo_key {h : Heap} {p x : Id} {g : Tag} {i : Int} : StepTo h p (.pair g (.int i)) x ↔ pyGet (famView h p g) i = some x := by
  rw [pyGet_iff]
  constructor
  · intro s; cases s with | key a b => cases b; exact a
  · intro a; exact .key a (.here _)

theorem fallback_not_one {F : Fams} {tg : Target} {e : Err} {b : Bool} {f : Found} (h : childFallback F tg e = .ok (b, f)) : b = false ∧ ∃ l, f = .items l := by
  unfold childFallback at h
  split at h
  · split at h
    · simp only [Except.ok.injEq, Prod.mk.injEq] at h; exact ⟨h.1.symm, _, h.2.symm⟩
    · cases h
  · cases h

/-- what a target made of a tag finds: one item if the step exists, a list, or nothing -/
theorem childRen_tag {h : Heap} (W : WF h) (p : Id) (t : Tag) : (∃ x, childRen h p (Target.ofTag t) = .ok (true, .one x) ∧ StepTo h p t x) ∨
    ((∀ x, ¬ StepTo h p t x) ∧ ((∃ l, childRen h p (Target.ofTag t) = .ok (false, .items l)) ∨ ∃ e, childRen h p (Target.ofTag t) = .error e)) := by
  have fb : ∀ (F : Fams) (tg : Target) (e : Err), (∃ l, childFallback F tg e = .ok (false, .items l)) ∨ ∃ e', childFallback F tg e = .error e' := by
    intro F tg e
    cases hf : childFallback F tg e with
    | error e' => exact Or.inr ⟨e', rfl⟩
    | ok r =>
      obtain ⟨b, f⟩ := r
      obtain ⟨rfl, l, rfl⟩ := fallback_not_one hf
      exact Or.inl ⟨l, rfl⟩
  by_cases hk : h.kids p = []
  · right
    refine ⟨fun x s => ?_, Or.inr ⟨.key, by rw [childRen, if_pos hk]⟩⟩
    cases s with
    | idx a b => obtain ⟨n, hn, -⟩ := a; rw [hk] at hn; cases hn
    | key a b => obtain ⟨n, hn, -⟩ := a; rw [hk] at hn; cases hn
  · obtain ⟨F, hb, hf, O⟩ := W.bound hk
    have no : ∀ {t : Tag}, (∀ i, t ≠ .int i) → (∀ g i, t ≠ .pair g (.int i)) → ∀ x, ¬ StepTo h p t x := by
      intro t h1 h2 x s
      cases s with
      | idx a b => exact h1 _ rfl
      | key a b => exact h2 _ _ rfl
    have plain : ∀ t : Tag, (∃ l, childRen h p (.tag t) = .ok (false, .items l)) ∨ ∃ e, childRen h p (.tag t) = .error e := by
      intro t
      rw [childRen, if_neg hk, hb]
      simp only [Option.getD_some]
      cases F.get? t with
      | none => exact Or.inr ⟨_, rfl⟩
      | some l => exact Or.inl ⟨l, rfl⟩
    have keyed : ∀ (g u : Tag), (∃ l, childRen h p (.key g (.other u)) = .ok (false, .items l)) ∨ ∃ e, childRen h p (.key g (.other u)) = .error e := by
      intro g u
      rw [childRen, if_neg hk, hb]
      simp only [Option.getD_some, childKey]
      split
      · exact fb _ _ _
      · split
        · split
          · exact Or.inl ⟨_, rfl⟩
          · exact fb _ _ _
        · exact fb _ _ _
    match t with
    | .int i =>
      have e : childRen h p (Target.ofTag (.int i)) = (match pyGet (h.kids p) i with | some x => .ok (true, .one x) | none => childFallback F (.int i) .index) := by
        rw [Target.ofTag, childRen, if_neg hk, hb]; rfl
      rw [e]
      cases hg : pyGet (h.kids p) i with
      | some x => exact Or.inl ⟨x, rfl, stepTo_int.2 hg⟩
      | none => exact Or.inr ⟨fun x s => by rw [stepTo_int, hg] at s; exact absurd s (by simp), fb _ _ _⟩
    | .pair g (.int i) =>
      have e : childRen h p (Target.ofTag (.pair g (.int i))) = childKey F g (.int i) := by
        rw [Target.ofTag, childRen, if_neg hk, hb]; rfl
      rw [e, childKey]
      have hO := O.get g
      cases hF : F.get? g with
      | none =>
        refine Or.inr ⟨fun x s => ?_, fb _ _ _⟩
        rw [hF] at hO
        rw [stepTo_key] at s
        have : famView h p g = [] := by
          by_contra hne; rw [if_neg hne] at hO; cases hO
        rw [this] at s; unfold pyGet at s; split at s <;> simp at s
      | some fam =>
        rw [hF] at hO
        have : fam = famView h p g := by
          split at hO
          · cases hO
          · simpa using hO
        subst this
        simp only
        cases hg : pyGet (famView h p g) i with
        | some x => exact Or.inl ⟨x, rfl, stepTo_key.2 hg⟩
        | none => exact Or.inr ⟨fun x s => by rw [stepTo_key, hg] at s; exact absurd s (by simp), fb _ _ _⟩
    | .pair g (.str s) => exact Or.inr ⟨no (by intros; simp) (by intros; simp), keyed g (.str s)⟩
    | .pair g (.pair a b) => exact Or.inr ⟨no (by intros; simp) (by intros; simp), keyed g (.pair a b)⟩
    | .pair g .noTag => exact Or.inr ⟨no (by intros; simp) (by intros; simp), keyed g .noTag⟩
    | .pair g (.other n) => exact Or.inr ⟨no (by intros; simp) (by intros; simp), keyed g (.other n)⟩
    | .noTag => exact Or.inr ⟨no (by intros; simp) (by intros; simp), plain .noTag⟩
    | .str s => exact Or.inr ⟨no (by intros; simp) (by intros; simp), plain (.str s)⟩
    | .other n => exact Or.inr ⟨no (by intros; simp) (by intros; simp), plain (.other n)⟩

/-- after a list result only lists follow -/
theorem levelLoop_list {h : Heap} : ∀ (ts : List Target) (l : List Elem), ∃ l', levelLoop h ts (false, .list l) = .ok (false, .list l')
  | [], l => ⟨l, rfl⟩
  | t :: ts, l => by
    rw [levelLoop]
    simp only [levelStep]
    exact levelLoop_list ts _

theorem levelLoop_leads {h : Heap} (W : WF h) : ∀ (ts : List Tag) (p : Id), (∃ x, levelLoop h (ts.map Target.ofTag) (true, .one p) = .ok (true, .one x) ∧ LeadsTo h p ts x) ∨
    ((∀ x, ¬ LeadsTo h p ts x) ∧ ((∃ l, levelLoop h (ts.map Target.ofTag) (true, .one p) = .ok (false, .list l)) ∨ ∃ e, levelLoop h (ts.map Target.ofTag) (true, .one p) = .error e))
  | [], p => Or.inl ⟨p, rfl, .here p⟩
  | t :: ts, p => by
    simp only [List.map_cons, levelLoop, levelStep]
    rcases childRen_tag W p t with ⟨x, e, s⟩ | ⟨hn, ⟨l, e⟩ | ⟨e', e⟩⟩
    · rw [e]
      simp only
      rcases levelLoop_leads W ts x with ⟨y, e2, L⟩ | ⟨hn, e2⟩
      · exact Or.inl ⟨y, e2, leads_cons.2 ⟨x, s, L⟩⟩
      · refine Or.inr ⟨fun y L => ?_, e2⟩
        obtain ⟨x', s', L'⟩ := leads_cons.1 L
        have : x' = x := by
          rcases childRen_tag W p t with ⟨z, ez, -⟩ | ⟨hno, -⟩
          · have q : ∀ {a}, StepTo h p t a → a = x := by
              intro a sa
              cases s with
              | idx a1 b1 => cases b1; cases sa with | idx a2 b2 => cases b2; exact Option.some.inj ((pyGet_iff.2 a2).symm.trans (pyGet_iff.2 a1))
              | key a1 b1 => cases b1; cases sa with | key a2 b2 => cases b2; exact Option.some.inj ((pyGet_iff.2 a2).symm.trans (pyGet_iff.2 a1))
            exact q s'
          · exact absurd s (hno x)
        exact hn y (this ▸ L')
    · rw [e]
      simp only
      refine Or.inr ⟨fun y L => ?_, Or.inl (levelLoop_list _ _)⟩
      obtain ⟨x', s', -⟩ := leads_cons.1 L
      exact hn x' s'
    · rw [e]
      simp only
      refine Or.inr ⟨fun y L => ?_, Or.inr ⟨e', rfl⟩⟩
      obtain ⟨x', s', -⟩ := leads_cons.1 L
      exact hn x' s'

/-- a path leads to one item at most -/
theorem LeadsTo.unique {h : Heap} {p x y : Id} {ts : List Tag} (A : LeadsTo h p ts x) (B : LeadsTo h p ts y) : x = y := by
  induction A with
  | here p => cases B; rfl
  | idx a _ ih => cases B with | idx b B => 
                    have := Option.some.inj ((pyGet_iff.2 a).symm.trans (pyGet_iff.2 b))
                    subst this
                    exact ih B
  | key a _ ih => cases B with | key b B => 
                    have := Option.some.inj ((pyGet_iff.2 a).symm.trans (pyGet_iff.2 b))
                    subst this
                    exact ih B

/-- `get` with a path: one item exactly if the path leads to it -/
theorem getPath_leads {h : Heap} (W : WF h) (p : Id) (t : Tag) (ts : List Tag) : (∃ x, onlyItem (getPath h p (Target.ofTag t) (ts.map Target.ofTag)) = .ok x ∧ LeadsTo h p (t :: ts) x) ∨
    ((∀ x, ¬ LeadsTo h p (t :: ts) x) ∧ ∃ e, onlyItem (getPath h p (Target.ofTag t) (ts.map Target.ofTag)) = .error e) := by
  have key := levelLoop_leads W (t :: ts) p
  simp only [List.map_cons, levelLoop, levelStep] at key
  rcases childRen_tag W p t with ⟨x, e, s⟩ | ⟨hn, ⟨l, e⟩ | ⟨e', e⟩⟩
  · rw [e] at key
    simp only at key
    cases ts with
    | nil => exact Or.inl ⟨x, by simp [getPath, e, onlyItem], s⟩
    | cons u us =>
      simp only [getPath, e, List.map_cons, reduceCtorEq, if_false]
      rcases key with ⟨y, e2, L⟩ | ⟨hno, ⟨l, e2⟩ | ⟨e', e2⟩⟩
      · simp only [List.map_cons] at e2
        exact Or.inl ⟨y, by rw [e2]; rfl, L⟩
      · simp only [List.map_cons] at e2
        refine Or.inr ⟨hno, ?_⟩
        rw [e2]
        cases l <;> exact ⟨_, rfl⟩
      · simp only [List.map_cons] at e2
        exact Or.inr ⟨hno, e', by rw [e2]; rfl⟩
  · refine Or.inr ⟨fun y L => ?_, ?_⟩
    · obtain ⟨x', s', -⟩ := leads_cons.1 L
      exact hn x' s'
    · simp only [getPath, e]
      cases ts with
      | nil => simp only [List.map_nil, if_true]; exact ⟨_, rfl⟩
      | cons u us =>
        simp only [List.map_cons, reduceCtorEq, if_false]
        obtain ⟨l', e2⟩ := levelLoop_list (h := h) (Target.ofTag u :: us.map Target.ofTag) (l.map Elem.item)
        rw [Found.items, e2]
        cases l' <;> exact ⟨_, rfl⟩
  · refine Or.inr ⟨fun y L => ?_, ?_⟩
    · obtain ⟨x', s', -⟩ := leads_cons.1 L
      exact hn x' s'
    · simp only [getPath, e]; exact ⟨_, rfl⟩

theorem LeadsTo.congr {h g : Heap} (hk : ∀ i, h.kids i ≠ [] → g.kids i = h.kids i) (ht : ∀ i c, c ∈ h.kids i → g.tag c = h.tag c) {p x : Id} {ts : List Tag} (L : LeadsTo h p ts x) : LeadsTo g p ts x := by
  have ne : ∀ {l : List Id} {i : Int} {x : Id}, AtIdx l i x → l ≠ [] := by
    rintro l i x ⟨n, hn, -⟩ rfl
    simp at hn
  induction L with
  | here p => exact .here p
  | idx a _ ih => exact .idx (by rw [hk _ (ne a)]; exact a) ih
  | @key p x y t i ts a _ ih =>
    refine .key ?_ ih
    have hn : h.kids p ≠ [] := fun e => ne a (by rw [e]; rfl)
    rw [hk p hn]
    have : ((h.kids p).filter fun c => decide (g.tag c = t)) = (h.kids p).filter fun c => decide (h.tag c = t) := List.filter_congr fun c hc => by rw [ht p c hc]
    rw [this]; exact a

theorem setLink_structEq (h : Heap) (p : Id) (f : LinkSt → LinkSt) : StructEq h (h.setLink p f) :=
  DataOnly.structEq (f := fun n => { n with link := n.link.map f }) ⟨fun _ => rfl, fun _ => rfl, fun _ => rfl, fun _ => rfl, fun _ => rfl⟩ h p

theorem setLink_value (h : Heap) (p : Id) (f : LinkSt → LinkSt) (i : Id) : ((h.setLink p f).node i).value = (h.node i).value := by
  simp only [Heap.setLink, Heap.modify]; split <;> rfl
theorem setLink_flags (h : Heap) (p : Id) (f : LinkSt → LinkSt) (i : Id) : (h.setLink p f).flags i = h.flags i := by
  simp only [Heap.setLink, Heap.flags, Heap.modify]; split <;> rfl
theorem setLink_link (h : Heap) (p : Id) (f : LinkSt → LinkSt) (i : Id) : ((h.setLink p f).node i).link = if i = p then (h.node i).link.map f else (h.node i).link := by
  simp only [Heap.setLink, Heap.modify]; split <;> rfl

theorem setLink_id {h : Heap} {p : Id} {lk : LinkSt} {f : LinkSt → LinkSt} (hl : (h.node p).link = some lk) (hf : f lk = lk) : h.setLink p f = h := by
  have : (fun i => if i = p then { h.node i with link := (h.node i).link.map f } else h.node i) = h.node := by
    funext i
    split
    · next e =>
      subst e
      rw [hl, Option.map_some, hf, ← hl]
    · rfl
  obtain ⟨nx, nd⟩ := h
  simp only [Heap.setLink, Heap.modify] at this ⊢
  rw [this]

/-- `get_target_tree` from the tree on: the path without a leading root tag is followed; the link keeps this shorter path -/
theorem targetIn_spec {h : Heap} (W : WF h) {p : Id} {lk : LinkSt} (r : Id) (hl : (h.node p).link = some lk') (hp : lk'.path = lk.path) :
    ∃ q, targetIn h p lk.path r = (h.setLink p fun l => { l with path := dropRoot (h.tag r) lk.path }, q) ∧
      ((∃ s, q = .ok s ∧ LeadsTo h r (dropRoot (h.tag r) lk.path) s) ∨ ((∀ s, ¬ LeadsTo h r (dropRoot (h.tag r) lk.path) s) ∧ ∃ e, q = .error e)) := by
  have same : h = h.setLink p fun l => { l with path := lk.path } := (setLink_id hl (by rw [← hp])).symm
  cases hpath : lk.path with
  | nil =>
    refine ⟨.ok r, ?_, Or.inl ⟨r, rfl, .here r⟩⟩
    rw [hpath] at same
    simp only [targetIn, dropRoot]
    rw [← same]
  | cons t ts =>
    rw [hpath] at same
    by_cases ht : t = h.tag r
    · simp only [targetIn, dropRoot, ht, if_true]
      cases ts with
      | nil => exact ⟨.ok r, rfl, Or.inl ⟨r, rfl, .here r⟩⟩
      | cons u us =>
        have S := setLink_structEq h p fun l => { l with path := u :: us }
        have L1 : ∀ s, LeadsTo (h.setLink p fun l => { l with path := u :: us }) r (u :: us) s ↔ LeadsTo h r (u :: us) s := fun s =>
          ⟨fun L => L.congr (fun i _ => (S.kids i).symm) (fun i c _ => (S.tag c).symm), fun L => L.congr (fun i _ => S.kids i) (fun i c _ => S.tag c)⟩
        rcases getPath_leads (S.wf W) r u us with ⟨x, e, L⟩ | ⟨hn, e, he⟩
        · exact ⟨_, rfl, Or.inl ⟨x, e, (L1 x).1 L⟩⟩
        · exact ⟨_, rfl, Or.inr ⟨fun s L => hn s ((L1 s).2 L), e, he⟩⟩
    · simp only [targetIn, dropRoot, ht, if_false]
      rw [← same]
      rcases getPath_leads W r t ts with ⟨x, e, L⟩ | ⟨hn, e, he⟩
      · exact ⟨_, rfl, Or.inl ⟨x, e, L⟩⟩
      · exact ⟨_, rfl, Or.inr ⟨hn, e, he⟩⟩

theorem LinkSt.OwnTree.the {l : LinkSt} (o : l.OwnTree) : l.theFile = none := by
  rcases o with e | e <;> simp [LinkSt.theFile, e]
theorem LinkSt.InFile.the {l : LinkSt} {f : String} (o : l.InFile f) : l.theFile = some f := by
  simp [LinkSt.theFile, o.1, o.2]

theorem theFile_none {fe : FileEnv} {h : Heap} {p : Id} {lk : LinkSt} (hl : (h.node p).link = some lk) (hf : lk.theFile = none) : getTarget fe h p = targetIn h p lk.path (h.root p) := by
  simp only [getTarget, hl, hf]

end ITree
