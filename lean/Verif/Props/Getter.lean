import Verif.Props.Lookup
/-
C48: `get(*targets)`, `get.single`, `get.iter`.
-/
namespace ITree

/-- the items one target selects below one item: what `p[tg]` delivers, nothing if it raises -/
def matches1 (h : Heap) (tg : Target) (p : Id) : List Id :=
  match getItem h p tg with
  | .ok (.one x) => [x]
  | .ok (.many l) => l
  | .error _ => []

/-- specification: descend level by level, collecting the matches below every item found so far, in order -/
def levels (h : Heap) : List Id → List Target → List Id
  | S, [] => S
  | S, t :: ts => levels h (S.flatMap (matches1 h t)) ts

/-- a key with a slice, `(tag, a:b:c)` -/
def Target.isKeySlice : Target → Bool
  | .key _ (.slice _) => true
  | _ => false

/-- the intermediate result `r` stands for the items `S` -/
inductive Stands : Bool × Found → List Id → Prop
  | one (x : Id) : Stands (true, .one x) [x]
  | list (l : List Id) : Stands (false, .list (l.map Elem.item)) l
  | iter (l : List Id) : Stands (false, .iter (l.map Elem.item)) l

theorem childFallback_eq (F : Fams) (tg : Target) (e : Err) : childFallback F tg e = match fallbackTag F tg e with
    | .ok (.one x) => .ok (true, .one x) | .ok (.many l) => .ok (false, .items l) | .error e => .error e := by
  simp only [childFallback, fallbackTag]
  cases tg.asTag with
  | none => rfl
  | some t => dsimp only; cases F.get? t <;> rfl

theorem childFallback_stands (F : Fams) (tg : Target) (e : Err) : match fallbackTag F tg e with
    | .ok (.one x) => childFallback F tg e = .ok (true, .one x)
    | .ok (.many l) => ∃ r, childFallback F tg e = .ok r ∧ Stands r l
    | .error _ => ∃ e', childFallback F tg e = .error e' := by
  rw [childFallback_eq]
  rcases fallbackTag F tg e with e | (x | l)
  · exact ⟨_, rfl⟩
  · rfl
  · exact ⟨_, rfl, .list l⟩

/-- the relation between `_get_child_ren` and `__getitem__` -/
def Agree (c : Except Err (Bool × Found)) (g : Except Err GetRes) : Prop :=
  match g with
  | .ok (.one x) => c = .ok (true, .one x)
  | .ok (.many l) => ∃ r, c = .ok r ∧ Stands r l
  | .error _ => ∃ e', c = .error e'

theorem childRen_agree (h : Heap) (p : Id) (tg : Target) (hs : tg.isKeySlice = false) : Agree (childRen h p tg) (getItem h p tg) := by
  by_cases hk : h.kids p = []
  · have : getItem h p tg = .error .key := by cases tg <;> simp [getItem, hk]
    rw [this]
    exact ⟨.key, by simp [childRen, hk]⟩
  · simp only [childRen, if_neg hk]
    cases tg with
    | int i =>
      simp only [getItem, if_neg hk, getItem1]
      cases pyGet (h.kids p) i with
      | some x => exact rfl
      | none => exact childFallback_stands _ _ _
    | slice s =>
      simp only [getItem, if_neg hk, getItem1]
      cases pySlice (h.kids p) s with
      | some x => exact ⟨_, rfl, .list _⟩
      | none => exact ⟨_, rfl⟩
    | key g sel =>
      simp only [getItem, if_neg hk, getItem1, childKey, getKey]
      cases ((h.boundFams p).getD []).get? g with
      | none => exact childFallback_stands _ _ _
      | some fam =>
        cases sel with
        | dots => exact ⟨_, rfl, .list _⟩
        | int i =>
          dsimp only
          cases pyGet fam i with
          | some x => exact rfl
          | none => exact childFallback_stands _ _ _
        | slice s => simp [Target.isKeySlice] at hs
        | list l =>
          dsimp only
          cases l.mapM (pyGet fam) with
          | some x => exact ⟨_, rfl, .list _⟩
          | none => exact childFallback_stands ((h.boundFams p).getD []) (.key g (.list l)) .value
        | other t =>
          dsimp only
          cases t.asIdxs with
          | none => exact childFallback_stands _ _ _
          | some l =>
            dsimp only
            cases l.mapM (pyGet fam) with
            | some x => exact ⟨_, rfl, .list _⟩
            | none => exact childFallback_stands _ _ _
    | tag t =>
      simp only [getItem, if_neg hk, getItem1]
      cases ((h.boundFams p).getD []).get? t with
      | some x => exact ⟨_, rfl, .list _⟩
      | none => exact ⟨_, rfl⟩
    | tags ts =>
      simp only [getItem, if_neg hk, getItem1]
      cases ts.mapM ((h.boundFams p).getD []).get? with
      | some ls =>
        dsimp only
        by_cases he : ls.flatten = []
        · simp only [he, if_true]; exact ⟨_, rfl⟩
        · simp only [he, if_false]; exact ⟨_, rfl, .list _⟩
      | none => exact ⟨_, rfl⟩
    | list ts =>
      simp only [getItem, if_neg hk]
      cases getItems h p ts with
      | ok r =>
        dsimp only
        by_cases he : r = []
        · simp only [he, if_true]; exact ⟨_, rfl⟩
        · simp only [he, if_false]; exact ⟨_, rfl, .list _⟩
      | error e => exact ⟨_, rfl⟩
    | dots => simp only [getItem, if_neg hk, getItem1]; exact ⟨_, rfl, .list _⟩
    | filter f => simp only [getItem, if_neg hk, getItem1]; exact ⟨_, rfl, .iter _⟩
    | item i => simp only [getItem, if_neg hk, getItem1]; exact ⟨_, rfl⟩

/-- what one descent delivers -/
theorem childRen_cases (h : Heap) (p : Id) (tg : Target) (hs : tg.isKeySlice = false) :
    (∃ r, childRen h p tg = .ok r ∧ Stands r (matches1 h tg p)) ∨ (∃ e, childRen h p tg = .error e) ∧ matches1 h tg p = [] := by
  have := childRen_agree h p tg hs
  unfold matches1
  rcases hg : getItem h p tg with e | (x | l)
  · right
    rw [hg] at this
    exact ⟨this, rfl⟩
  · left
    rw [hg] at this
    exact ⟨_, this, .one x⟩
  · left
    rw [hg] at this
    exact this

theorem levelMany_eq (h : Heap) (tg : Target) (hs : tg.isKeySlice = false) (l : List Id) :
    levelMany h tg (l.map Elem.item) = (l.flatMap (matches1 h tg)).map Elem.item := by
  induction l with
  | nil => rfl
  | cons x l ih =>
    simp only [List.map_cons, levelMany, List.flatMap_cons, List.map_append, ih]
    congr 1
    rcases childRen_cases h x tg hs with ⟨r, e, st⟩ | ⟨⟨e, he⟩, hm⟩
    · rw [e]
      generalize matches1 h tg x = m at st
      cases st <;> rfl
    · rw [he, hm]; rfl

theorem levelLoop_spec (h : Heap) : ∀ (ts : List Target), (∀ t ∈ ts, t.isKeySlice = false) → ∀ r S, Stands r S →
    (∃ r', levelLoop h ts r = .ok r' ∧ Stands r' (levels h S ts)) ∨ (∃ e, levelLoop h ts r = .error e) ∧ levels h S ts = [] := by
  intro ts
  induction ts with
  | nil => intro _ r S st; exact .inl ⟨r, rfl, st⟩
  | cons t ts ih =>
    intro hs r S st
    have hst := hs t (by simp)
    have key : (∃ r', levelStep h t r = .ok r' ∧ Stands r' (S.flatMap (matches1 h t))) ∨
        (∃ e, levelStep h t r = .error e) ∧ S.flatMap (matches1 h t) = [] := by
      cases st with
      | one x => simp only [List.flatMap_cons, List.flatMap_nil, List.append_nil]; exact childRen_cases h x t hst
      | list => left; exact ⟨_, by simp [levelStep, Found.elems, levelMany_eq h t hst], .list _⟩
      | iter => left; exact ⟨_, by simp [levelStep, Found.elems, levelMany_eq h t hst], .list _⟩
    rcases key with ⟨r', e, st'⟩ | ⟨⟨e, he⟩, hm⟩
    · simp only [levelLoop, e, levels]
      exact ih (fun t ht => hs t (by simp [ht])) r' _ st'
    · right
      refine ⟨⟨e, by simp only [levelLoop, he]⟩, ?_⟩
      simp only [levels, hm]
      clear ih hs
      induction ts with
      | nil => rfl
      | cons t ts ih => simpa [levels] using ih

/-- the items of a result of `get` -/
def GetOut.items : GetOut → List Elem
  | .one x => [.item x]
  | .list l => l

theorem getPath_stands (h : Heap) (p : Id) (t : Target) (ts : List Target) (hs : ∀ u ∈ t :: ts, u.isKeySlice = false) :
    (∃ r, childRen h p t = .ok r ∧ ∃ r', levelLoop h ts r = .ok r' ∧ Stands r' (levels h [p] (t :: ts))) ∨
    ((∃ e, childRen h p t = .error e) ∨ ∃ r e, childRen h p t = .ok r ∧ levelLoop h ts r = .error e) ∧ levels h [p] (t :: ts) = [] := by
  have e0 : levels h [p] (t :: ts) = levels h (matches1 h t p) ts := by simp [levels]
  rw [e0]
  rcases childRen_cases h p t (hs t (by simp)) with ⟨r, e, st⟩ | ⟨⟨e, he⟩, hm⟩
  · rcases levelLoop_spec h ts (fun t ht => hs t (by simp [ht])) r _ st with ⟨r', e', st'⟩ | ⟨⟨e', he'⟩, hm'⟩
    · exact .inl ⟨r, e, r', e', st'⟩
    · exact .inr ⟨.inr ⟨r, e', e, he'⟩, hm'⟩
  · refine .inr ⟨.inl ⟨e, he⟩, ?_⟩
    rw [hm]
    clear hs e0
    induction ts with
    | nil => rfl
    | cons t ts ih => simpa [levels] using ih

/-- C48 (partial: keys with slices are excluded, see `C48_key_slice_wrong`). `t.get(*targets)` delivers exactly the items found by descending level by
level, in order; a single item is delivered only if it is the only match; if anything matches it does not raise. -/
theorem C48_get_partial (h : Heap) (p : Id) (t : Target) (ts : List Target) (hs : ∀ u ∈ t :: ts, u.isKeySlice = false) :
    (∀ r, getPath h p t ts = .ok r → r.items = (levels h [p] (t :: ts)).map Elem.item) ∧
    (levels h [p] (t :: ts) ≠ [] → ∃ r, getPath h p t ts = .ok r) := by
  rcases getPath_stands h p t ts hs with ⟨r, e, r', e', st⟩ | ⟨he, hm⟩
  · simp only [getPath, e, e']
    generalize levels h [p] (t :: ts) = S at st
    by_cases hts : ts = []
    · subst hts
      simp only [levelLoop, Except.ok.injEq] at e'
      subst e'
      cases st with
      | one x => simp [GetOut.items]
      | list => simp [GetOut.items, Found.elems]
      | iter => simp [GetOut.items, Found.elems]
    · simp only [hts, if_false]
      cases st with
      | one x => simp [GetOut.items]
      | list =>
        cases S with
        | nil => simp
        | cons a S => simp [GetOut.items, Found.elems]
      | iter => simp [GetOut.items, Found.elems]
  · rw [hm]
    refine ⟨fun r hr => ?_, fun h => absurd rfl h⟩
    rcases he with ⟨e, he⟩ | ⟨r', e, he, he'⟩
    · simp [getPath, he] at hr
    · simp only [getPath, he] at hr
      by_cases hts : ts = []
      · subst hts; simp [levelLoop] at he'
      · simp [hts, he'] at hr

example : getPath demo 0 (.tag (.other 1)) [.int 0] = .ok (.list [.item 4]) ∧ levels demo [0] [.tag (.other 1), .int 0] = [4] := by decide +kernel

/-- C48 (partial: keys with slices excluded). `get.single` delivers `x` exactly when `x` is the only match; in all other cases it raises. -/
theorem C48_single_partial (h : Heap) (p : Id) (t : Target) (ts : List Target) (hs : ∀ u ∈ t :: ts, u.isKeySlice = false) :
    (∀ x, getSingle h p t ts = .ok (.one x) ↔ levels h [p] (t :: ts) = [x]) ∧
    (∀ l, getSingle h p t ts ≠ .ok (.list l)) := by
  rcases getPath_stands h p t ts hs with ⟨r, e, r', e', st⟩ | ⟨he, hm⟩
  · simp only [getSingle, e, e']
    generalize levels h [p] (t :: ts) = S at st
    by_cases hts : ts = []
    · subst hts
      simp only [levelLoop, Except.ok.injEq] at e'
      subst e'
      cases st with
      | one x => simp
      | list => cases S with
        | nil => simp [Found.elems]
        | cons a S => cases S <;> simp [Found.elems]
      | iter => cases S with
        | nil => simp [Found.elems]
        | cons a S => cases S <;> simp [Found.elems]
    · simp only [hts, if_false]
      cases st with
      | one x => simp
      | list =>
        cases S with
        | nil => simp
        | cons a S => cases S <;> simp [Found.elems]
      | iter => cases S with
        | nil => simp [Found.elems]
        | cons a S => cases S <;> simp [Found.elems]
  · rw [hm]
    have : ∀ r, getSingle h p t ts ≠ .ok r := by
      intro r hr
      rcases he with ⟨e, he⟩ | ⟨r', e, he, he'⟩
      · simp [getSingle, he] at hr
      · simp only [getSingle, he] at hr
        by_cases hts : ts = []
        · subst hts; simp [levelLoop] at he'
        · simp [hts, he'] at hr
    exact ⟨fun x => ⟨fun h => absurd h (this _), fun h => by simp at h⟩, fun l => this _⟩

example : getSingle demo 0 (.tag (.other 1)) [.int 0] = .ok (.one 4) ∧ getSingle demo 0 (.tag (.other 1)) [] = .error .value := by decide +kernel

/-- C48 (partial: keys with slices excluded). `get.iter` delivers the matches in order. -/
theorem C48_iter_partial (h : Heap) (p : Id) (t : Target) (ts : List Target) (hs : ∀ u ∈ t :: ts, u.isKeySlice = false) :
    (∀ l, getIter h p t ts = .ok l → l = (levels h [p] (t :: ts)).map Elem.item) ∧
    (levels h [p] (t :: ts) ≠ [] → ∃ l, getIter h p t ts = .ok l) := by
  rcases getPath_stands h p t ts hs with ⟨r, e, r', e', st⟩ | ⟨he, hm⟩
  · simp only [getIter, e, e']
    generalize levels h [p] (t :: ts) = S at st
    by_cases hts : ts = []
    · subst hts
      simp only [levelLoop, Except.ok.injEq] at e'
      subst e'
      cases st with
      | one x => simp
      | list => simp [Found.elems]
      | iter => simp [Found.elems]
    · simp only [hts, if_false]
      cases st with
      | one x => simp
      | list =>
        cases S with
        | nil => simp
        | cons a S => simp [Found.elems]
      | iter => simp [Found.elems]
  · rw [hm]
    refine ⟨fun r hr => ?_, fun h => absurd rfl h⟩
    rcases he with ⟨e, he⟩ | ⟨r', e, he, he'⟩
    · simp [getIter, he] at hr
    · simp only [getIter, he] at hr
      by_cases hts : ts = []
      · subst hts; simp [levelLoop] at he'
      · simp [hts, he'] at hr

example : getIter demo 0 .dots [.int 0] = .ok [.item 4] := by decide +kernel

/-- C48 is false for keys with slices: the first level finds item 1, whose child 0 is item 4, but `get` raises AttributeError; in the middle of a path
the slice is delivered as a nested list. -/
theorem C48_key_slice_wrong : levels demo [0] [.key (.other 1) (.slice ⟨none, some 1, none⟩), .int 0] = [4] ∧
    getPath demo 0 (.key (.other 1) (.slice ⟨none, some 1, none⟩)) [.int 0] = .error .attribute ∧
    getIter demo 0 (.key (.other 1) (.slice ⟨none, none, none⟩)) [] = .ok [.list [1, 3]] := by decide +kernel

/-- `get.by_level_filter` with three filters stops after the second level: the third filter is never applied. -/
theorem C48_level_filter_stops (h : Heap) (p : Id) (f g : Id → Bool) (fs : List (Id → Bool)) :
    byLevelFilter h p f (g :: fs) = byLevelFilter h p f [g] := rfl

end ITree
