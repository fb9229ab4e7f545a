import Verif.Model.Legacy
/-
Properties of the older data classes: `iTDataModel` (C63), `iTData` (C64, C65), `iTDataReadOnly` (C66).
-/
namespace Legacy
open DModels (DVal)

/-! ### C63: one model object -/

theorem isNo_iff (v : DVal) : v.isNo = true ↔ v = .noValue := by cases v <;> simp [DVal.isNo]

theorem step_val (M : LM) (o : MOp) : (M.step o).validator = M.validator ∧ (M.step o).fmt = M.fmt ∧
    ((M.step o).value = M.value ∨ (M.step o).value = .noValue ∨ ∃ v, M.validator v = .ok (M.step o).value) := by
  cases o with
  | set v =>
    simp only [LM.step, LM.set]
    split
    · exact ⟨rfl, rfl, .inr (.inl rfl)⟩
    · split
      · rename_i w hw; exact ⟨rfl, rfl, .inr (.inr ⟨v, hw⟩)⟩
      · exact ⟨rfl, rfl, .inl rfl⟩
  | check v =>
    simp only [LM.step, LM.check]
    split
    · rename_i w hw; exact ⟨rfl, rfl, .inr (.inr ⟨v, hw⟩)⟩
    · exact ⟨rfl, rfl, .inl rfl⟩
  | clear => exact ⟨rfl, rfl, .inr (.inl rfl)⟩
  | format =>
    simp only [LM.step, LM.format]
    split
    · exact ⟨rfl, rfl, .inl rfl⟩
    · split
      · exact ⟨rfl, rfl, .inl rfl⟩
      · split <;> exact ⟨rfl, rfl, .inl rfl⟩

theorem new_val {val : DVal → Except LErr DVal} {fmt : DVal → Except LErr (List Char)} {v : DVal} {M : LM} (h : LM.new val fmt v = .ok M) :
    M.validator = val ∧ M.fmt = fmt ∧ M.cache = none ∧ ((v = .noValue ∧ M.value = .noValue) ∨ val v = .ok M.value) := by
  unfold LM.new at h
  split at h
  · rename_i hv
    simp only [Except.ok.injEq] at h; subst h
    exact ⟨rfl, rfl, rfl, .inl ⟨(isNo_iff v).1 hv, rfl⟩⟩
  · split at h
    · rename_i w hw; simp only [Except.ok.injEq] at h; subst h; exact ⟨rfl, rfl, rfl, .inr hw⟩
    · simp at h

/-- C63: after any history of `set`, `check`, `clear` and formatting, the stored value is `NoValue` or something the validator delivered. -/
theorem C63_history (val : DVal → Except LErr DVal) (fmt : DVal → Except LErr (List Char)) (v : DVal) (M : LM) (hM : LM.new val fmt v = .ok M) (ops : List MOp) :
    (M.run ops).value = .noValue ∨ ∃ x, val x = .ok (M.run ops).value := by
  have h0 : M.validator = val ∧ (M.value = .noValue ∨ ∃ x, val x = .ok M.value) := by
    obtain ⟨h1, _, _, h2⟩ := new_val hM
    refine ⟨h1, ?_⟩
    rcases h2 with h2 | h2
    · exact .inl h2.2
    · exact .inr ⟨v, h2⟩
  clear hM
  induction ops generalizing M with
  | nil => exact h0.2
  | cons o os ih =>
    refine ih _ ?_
    obtain ⟨a, _, c⟩ := step_val M o
    refine ⟨a.trans h0.1, ?_⟩
    rcases c with c | c | ⟨x, hx⟩
    · rw [c]; exact h0.2
    · exact .inl c
    · exact .inr ⟨x, by rw [← h0.1]; exact hx⟩

/-- C63: a value the validator rejects is reported with the validator's exception, by the constructor and by `set`, and the object is as before; an accepted value is
stored as the validator delivers it and `set` answers with the old one. -/
theorem C63_set (M : LM) (v : DVal) (hv : v ≠ .noValue) :
    (∀ e, M.validator v = .error e → M.set v = (.error e, M) ∧ LM.new M.validator M.fmt v = .error e) ∧
    (∀ w, M.validator v = .ok w → (M.set v).1 = .ok M.value ∧ (M.set v).2.value = w) := by
  have hn : v.isNo = false := by rw [Bool.eq_false_iff]; exact fun h => hv ((isNo_iff v).1 h)
  refine ⟨fun e he => ?_, fun w hw => ?_⟩
  · simp [LM.set, LM.new, hn, he]
  · simp [LM.set, hn, hw]

/-- C63, without calls of `check`: the formatted text is always the text of the value stored now. -/
theorem C63_format_partial (val : DVal → Except LErr DVal) (fmt : DVal → Except LErr (List Char)) (v : DVal) (M : LM) (hM : LM.new val fmt v = .ok M)
    (ops : List MOp) (hc : ∀ x, MOp.check x ∉ ops) :
    ((M.run ops).value = .noValue → (M.run ops).format.1 = .ok "None".toList) ∧ ((M.run ops).value ≠ .noValue → (M.run ops).format.1 = fmt (M.run ops).value) := by
  have key : ∀ (ops : List MOp) (M : LM), (∀ x, MOp.check x ∉ ops) → M.fmt = fmt → (∀ t, M.cache = some t → M.value = .noValue ∨ fmt M.value = .ok t) →
      (M.run ops).fmt = fmt ∧ (∀ t, (M.run ops).cache = some t → (M.run ops).value = .noValue ∨ fmt (M.run ops).value = .ok t) := by
    intro ops
    induction ops with
    | nil => intro M _ h1 h2; exact ⟨h1, h2⟩
    | cons o os ih =>
      intro M hc h1 h2
      refine ih _ (fun x hx => hc x (List.mem_cons_of_mem _ hx)) ((step_val M o).2.1.trans h1) ?_
      cases o with
      | set x =>
        simp only [LM.step, LM.set]
        split
        · exact fun t ht => .inl rfl
        · split
          · intro t ht; simp at ht
          · exact h2
      | check x => exact absurd (List.mem_cons_self) (hc x)
      | clear => exact fun t ht => .inl rfl
      | format =>
        simp only [LM.step, LM.format]
        split
        · exact h2
        · split
          · exact h2
          · split
            · rename_i t ht; intro t' ht'; simp only [Option.some.injEq] at ht'; subst ht'; exact .inr (h1 ▸ ht)
            · exact h2
  obtain ⟨a, b, c, d⟩ := new_val hM
  obtain ⟨h1, h2⟩ := key ops M hc b (by intro t ht; rw [c] at ht; simp at ht)
  unfold LM.format
  refine ⟨fun hv => by rw [if_pos ((isNo_iff _).2 hv)], fun hv => ?_⟩
  · rw [if_neg (fun h => hv ((isNo_iff _).1 h))]
    cases hcache : (M.run ops).cache with
    | some t => exact ((h2 t hcache).resolve_left hv).symm
    | none =>
      simp only
      rw [h1]
      cases fmt (M.run ops).value <;> rfl

/-- Disagreement with "`check` tells whether a value fits": for every accepted value `check` stores it in the model, and the text cached for the value before stays. -/
theorem C63_check_wrong (M : LM) (v w : DVal) (h : M.validator v = .ok w) : (M.check v).1 = true ∧ (M.check v).2.value = w ∧
    ∀ t, M.cache = some t → w ≠ .noValue → (M.check v).2.format.1 = .ok t := by
  refine ⟨by simp [LM.check, h], by simp [LM.check, h], ?_⟩
  intro t ht hw
  have : w.isNo = false := by rw [Bool.eq_false_iff]; exact fun h => hw ((isNo_iff w).1 h)
  simp [LM.check, h, LM.format, this, ht]

/-- a model of small integers, formatted as "s" for a small and "b" for a big number -/
def small (x : DVal) : LM := ⟨fun v => match v with | .int z => if z < 10 then .ok (.int z) else .error .value | _ => .error .type,
  fun v => match v with | .int z => if z < 5 then .ok ['s'] else .ok ['b'] | _ => .error .type, x, none⟩

example : LM.new (small .none).validator (small .none).fmt (.int 3) = .ok (small (.int 3)) := rfl
example : ((small (.int 3)).set (.int 12)).1 = .error .value ∧ ((small (.int 3)).run [.set (.int 7), .set (.int 77)]).value = .int 7 := ⟨rfl, rfl⟩
/-- the stale text: format, check, format -/
example : ((small (.int 3)).run [.format, .check (.int 7)]).value = .int 7 ∧ ((small (.int 3)).run [.format, .check (.int 7)]).format.1 = .ok ['s'] ∧
    ((small (.int 3)).run [.format, .set (.int 7)]).format.1 = .ok ['b'] := ⟨rfl, rfl, rfl⟩

/-! ### C64: storing and fetching -/

variable {K : Type} [DecidableEq K]

theorem look_put (d : Items K) (k q : K) (v : DVal) : look (put d k v) q = if q = k then some v else look d q := by
  induction d with
  | nil =>
    simp only [put, look]
    by_cases h : q = k
    · simp [h]
    · simp [h, Ne.symm h]
  | cons a r ih =>
    obtain ⟨a, b⟩ := a
    simp only [put]
    by_cases h : a = k
    · rw [if_pos h]; simp only [look]; subst h
      by_cases hq : q = a
      · simp [hq]
      · simp [hq, Ne.symm hq]
    · rw [if_neg h]; simp only [look, ih]
      by_cases hq : a = q
      · subst hq; simp [h]
      · simp [hq]

theorem look_none {d : Items K} {k : K} : look d k = none ↔ k ∉ d.map (·.1) := by
  induction d with
  | nil => simp [look]
  | cons a r ih =>
    obtain ⟨a, b⟩ := a
    simp only [look, List.map_cons, List.mem_cons, not_or]
    by_cases h : a = k
    · simp [h]
    · simp [h, ih, Ne.symm h]

theorem look_some {d : Items K} (hd : (d.map (·.1)).Nodup) {k : K} {v : DVal} : look d k = some v ↔ (k, v) ∈ d := by
  induction d with
  | nil => simp [look]
  | cons a r ih =>
    obtain ⟨a, b⟩ := a
    simp only [List.map_cons, List.nodup_cons] at hd
    simp only [look, List.mem_cons, Prod.mk.injEq]
    by_cases h : a = k
    · subst h
      constructor
      · intro e; simp at e; exact .inl ⟨rfl, e.symm⟩
      · rintro (⟨_, e⟩ | e)
        · simp [e]
        · exact absurd (List.mem_map_of_mem (f := (·.1)) e) hd.1
    · rw [if_neg h, ih hd.2]
      simp [Ne.symm h]

theorem keys_put (d : Items K) (k : K) (v : DVal) : (put d k v).map (·.1) = if k ∈ d.map (·.1) then d.map (·.1) else d.map (·.1) ++ [k] := by
  induction d with
  | nil => simp [put]
  | cons a r ih =>
    obtain ⟨a, b⟩ := a
    simp only [put]
    by_cases h : a = k
    · simp [h]
    · rw [if_neg h]
      simp only [List.map_cons, ih, List.mem_cons, Ne.symm h, false_or]
      split <;> rfl

theorem nodup_put {d : Items K} (hd : (d.map (·.1)).Nodup) (k : K) (v : DVal) : ((put d k v).map (·.1)).Nodup := by
  rw [keys_put]
  split
  · exact hd
  · rename_i h; exact List.nodup_append.2 ⟨hd, by simp, by rintro x hx y hy rfl; simp at hy; exact h (hy ▸ hx)⟩

theorem erase_sub (d : Items K) (k : K) : List.Sublist (erase d k) d := by
  induction d with
  | nil => exact List.Sublist.refl _
  | cons a r ih =>
    obtain ⟨a, b⟩ := a
    simp only [erase]
    split
    · exact List.sublist_cons_self _ _
    · exact ih.cons_cons _

omit [DecidableEq K] in
theorem nodup_sub {d e : Items K} (hd : (d.map (·.1)).Nodup) (h : List.Sublist e d) : (e.map (·.1)).Nodup := hd.sublist (h.map _)

theorem look_erase {d : Items K} (hd : (d.map (·.1)).Nodup) (k q : K) : look (erase d k) q = if q = k then none else look d q := by
  induction d with
  | nil => simp [erase, look]
  | cons a r ih =>
    obtain ⟨a, b⟩ := a
    simp only [List.map_cons, List.nodup_cons] at hd
    simp only [erase]
    by_cases h : a = k
    · rw [if_pos h]; subst h
      by_cases hq : q = a
      · rw [if_pos hq, hq]; exact look_none.2 hd.1
      · rw [if_neg hq]; simp [look, Ne.symm hq]
    · rw [if_neg h]; simp only [look, ih hd.2]
      by_cases hq : a = q
      · subst hq; simp [h]
      · simp [hq]

theorem nodup_putAll (l : Items K) {d : Items K} (hd : (d.map (·.1)).Nodup) : ((putAll d l).map (·.1)).Nodup := by
  unfold putAll
  induction l generalizing d with
  | nil => exact hd
  | cons a r ih => exact ih (nodup_put hd _ _)

theorem look_putAll_not {l : Items K} {q : K} (hq : q ∉ l.map (·.1)) (d : Items K) : look (putAll d l) q = look d q := by
  unfold putAll
  induction l generalizing d with
  | nil => rfl
  | cons a r ih =>
    simp only [List.map_cons, List.mem_cons, not_or] at hq
    simp only [List.foldl_cons]
    rw [ih hq.2, look_put, if_neg hq.1]

theorem look_putAll {l : Items K} (hl : (l.map (·.1)).Nodup) {k : K} {v : DVal} (hk : (k, v) ∈ l) (d : Items K) : look (putAll d l) k = some v := by
  induction l generalizing d with
  | nil => simp at hk
  | cons a r ih =>
    simp only [List.map_cons, List.nodup_cons] at hl
    rcases List.mem_cons.1 hk with rfl | h
    · show look (putAll (put d k v) r) k = some v
      rw [look_putAll_not hl.1, look_put, if_pos rfl]
    · exact ih hl.2 h (put d a.1 a.2)

/-- C64: `d[k] = v` is what is fetched under k afterwards, every other key keeps its object, a known key its place and a new key comes last. -/
theorem C64_set (Q : Keys K) (d : Items K) (k : K) (v : DVal) (h : ¬ (k = Q.noKey ∧ v = .noValue)) :
    (∀ q, getFull (setItem Q d k v) q = if q = k then .ok v else getFull d q) ∧
    (setItem Q d k v).map (·.1) = if k ∈ d.map (·.1) then d.map (·.1) else d.map (·.1) ++ [k] := by
  have e : setItem Q d k v = put d k v := by unfold setItem; rw [if_neg (by rw [isNo_iff]; exact h)]
  rw [e]
  refine ⟨fun q => ?_, keys_put d k v⟩
  unfold getFull
  rw [look_put]
  by_cases hq : q = k <;> simp [hq]

/-- C64: `del d[k]`, `delete_item` and `pop` of a known key remove exactly that key and keep the order; an unknown key is a KeyError (or the default) and nothing changes.
`d[NoKey] = NoValue` is such a deletion. -/
theorem C64_delete (Q : Keys K) (d : Items K) (hd : (d.map (·.1)).Nodup) (k : K) :
    (k ∉ d.map (·.1) → delItem d k = .error .key ∧ pop d k none = (.error .key, d) ∧ (∀ x, pop d k (some x) = (.ok x, d)) ∧ setItem Q d Q.noKey .noValue = (if (look d Q.noKey).isSome then erase d Q.noKey else d)) ∧
    (∀ v, getFull d k = .ok v → ∃ d', delItem d k = .ok d' ∧ (∀ x, pop d k x = (.ok v, d')) ∧ d' = d.filter (fun kv => kv.1 ≠ k) ∧ (k = Q.noKey → setItem Q d k .noValue = d')) := by
  constructor
  · intro h
    have := look_none.2 h
    refine ⟨by simp [delItem, this], by simp [pop, this], by simp [pop, this], by simp [setItem, DVal.isNo]⟩
  · intro v hv
    have hl : look d k = some v := by
      unfold getFull at hv; split at hv
      · simp at hv
      · rename_i w hw; simp only [Except.ok.injEq] at hv; subst hv; exact hw
    refine ⟨erase d k, by simp [delItem, hl], by simp [pop, hl], ?_, ?_⟩
    · clear hl hv
      induction d with
      | nil => rfl
      | cons a r ih =>
        obtain ⟨a, b⟩ := a
        simp only [List.map_cons, List.nodup_cons] at hd
        simp only [erase, List.filter_cons]
        by_cases h : a = k
        · subst h
          simp only [if_pos, ne_eq, not_true_eq_false, decide_false, Bool.false_eq_true, if_false]
          symm; rw [List.filter_eq_self]
          intro kv hkv
          simp only [decide_eq_true_eq]
          rintro rfl
          exact hd.1 (List.mem_map_of_mem (f := (·.1)) hkv)
        · simp [h, ih hd.2]
    · rintro rfl; simp [setItem, DVal.isNo, hl]

theorem nodup_dictOf (Q : Keys K) (v : DVal) : ((dictOf Q v).1.map (·.1)).Nodup := by
  have nn : (([] : Items K).map (·.1)).Nodup := by simp
  unfold dictOf
  split
  · exact nn
  · exact nodup_putAll _ nn

/-- a dictionary given as argument has every key once -/
def Seq.IsDict : Seq K → Prop
  | .data d => (d.map (·.1)).Nodup
  | .obj _ => True

theorem nodup_newData {Q : Keys K} {s : Seq K} (hs : s.IsDict) {kw d : Items K} (h : newData Q s kw = .ok d) : (d.map (·.1)).Nodup := by
  unfold newData at h
  split at h
  · simp only [Except.ok.injEq] at h; rw [← h]; exact nodup_putAll _ (by simp)
  · simp only [Except.ok.injEq] at h; rw [← h]; exact nodup_putAll _ hs
  · split at h
    · rename_i x hx; simp only [Except.ok.injEq] at h; rw [← h]
      have := nodup_dictOf Q ‹DVal›; rw [hx] at this; exact nodup_putAll _ this
    · rename_i x e hx
      split at h
      · simp only [Except.ok.injEq] at h; rw [← h]
        have := nodup_dictOf Q ‹DVal›; rw [hx] at this; exact nodup_putAll _ (nodup_put this _ _)
      · simp at h

theorem nodup_fillOne {S : World × Items K} (hd : (S.2.map (·.1)).Nodup) (kv : K × DVal) (m : Bool) : ((fillOne S kv m).2.2.map (·.1)).Nodup := by
  unfold fillOne
  split
  · split
    · exact hd
    · split
      · exact hd
      · split
        · exact hd
        · simp only; split
          · exact hd
          · exact nodup_put hd _ _
  · exact nodup_put hd _ _

theorem nodup_fill (l : List ((K × DVal) × Bool)) {S : World × Items K} (hd : (S.2.map (·.1)).Nodup) : ((fill S l).2.2.map (·.1)).Nodup := by
  induction l generalizing S with
  | nil => exact hd
  | cons a r ih =>
    obtain ⟨kv, m⟩ := a
    have := nodup_fillOne hd kv m
    simp only [fill]
    split
    · rename_i e S' h; rw [h] at this; exact this
    · rename_i S' h; rw [h] at this; exact ih this

theorem nodup_step (Q : Keys K) (S : World × Items K) (hd : (S.2.map (·.1)).Nodup) (o : DOp K) : ((step Q S o).2.2.map (·.1)).Nodup := by
  cases o with
  | setItem k v =>
    simp only [step, setItem]
    split
    · split
      · exact nodup_sub hd (erase_sub _ _)
      · exact hd
    · exact nodup_put hd _ _
  | delItem k =>
    simp only [step, delItem]
    split
    · rename_i d h; split at h
      · simp only [Except.ok.injEq] at h; rw [← h]; exact nodup_sub hd (erase_sub _ _)
      · simp at h
    · exact hd
  | pop k x =>
    simp only [step, pop]
    cases look S.2 k with
    | some v => exact nodup_sub hd (erase_sub _ _)
    | none => cases x <;> exact hd
  | update s kw rm =>
    simp only [step, update]
    split
    · split
      · exact hd
      · exact nodup_putAll _ hd
    · split
      · exact hd
      · split
        · exact hd
        · exact nodup_fill _ hd
  | clear b =>
    simp only [step, clear]
    split
    · exact nodup_putAll _ (by simp)
    · simp
  | popitem =>
    simp only [step, popitem]
    split
    · exact hd
    · exact nodup_sub hd (List.dropLast_sublist _)
  | setdefault k v =>
    simp only [step, setdefault]
    split
    · exact hd
    · exact nodup_put hd _ _

/-- C64: after any history of calls on an object made by the constructor every key is there once. -/
theorem C64_keys (Q : Keys K) (W : World) (s : Seq K) (hs : s.IsDict) (kw d : Items K) (h : newData Q s kw = .ok d) (ops : List (DOp K)) :
    ((runOps (step Q) (W, d) ops).2.map (·.1)).Nodup := by
  have := nodup_newData hs h
  clear h
  generalize hS : (W, d) = S
  have hd : (S.2.map (·.1)).Nodup := by rw [← hS]; exact this
  clear this hS
  induction ops generalizing S with
  | nil => exact hd
  | cons o os ih => exact ih _ (nodup_step Q S hd o)

/-- C64: `model_items()` are the keys in order with what is fetched under them; an object is fetched itself, of a model object its value. -/
theorem C64_model_items (W : World) (d : Items K) (hd : (d.map (·.1)).Nodup) : (modelItems W d).map (·.1) = d.map (·.1) ∧
    ∀ kv ∈ modelItems W d, getItem W d kv.1 = .ok kv.2 := by
  refine ⟨by simp [modelItems], ?_⟩
  intro kv hkv
  unfold modelItems at hkv
  obtain ⟨a, ha, rfl⟩ := List.mem_map.1 hkv
  simp only [getItem, (look_some hd).2 (show (a.1, a.2) ∈ d from ha)]
  cases W.model? a.2 <;> rfl

/-- C64: `is_key_empty` is true exactly for keys under which nothing or `NoValue` is fetched. -/
theorem C64_key_empty (W : World) (d : Items K) (k : K) : isKeyEmpty W d k = true ↔ getItem W d k = .error .key ∨ getItem W d k = .ok .noValue := by
  unfold isKeyEmpty getItem
  cases look d k with
  | none => simp
  | some v =>
    simp only
    cases h : W.model? v with
    | some p => simp [isNo_iff]
    | none => simp [isNo_iff]

/-- a single object: no sequence at all, or a sequence whose first element is not a pair with a hashable first part -/
def Single (Q : Keys K) : DVal → Prop
  | .noValue | .bool _ | .int _ | .flt _ | .obj _ => True
  | .none | .dict _ => False
  | .str s => s ≠ []
  | .list l | .tuple l => ∃ e r, l = e :: r ∧ ∀ a b, pairOf e = some [a, b] → Q.key a = none

/-- C64: a single object becomes the value of `NoKey`, alone. -/
theorem C64_single_partial (Q : Keys K) (v : DVal) (hv : Single Q v) :
    newData Q (.obj v) [] = .ok [(Q.noKey, v)] ∧ isNoKeyOnly Q [(Q.noKey, v)] = true ∧ getFull [(Q.noKey, v)] Q.noKey = .ok v := by
  refine ⟨?_, by simp [isNoKeyOnly, look], by simp [getFull, look]⟩
  have key : ∀ l : List DVal, (∃ e r, l = e :: r ∧ ∀ a b, pairOf e = some [a, b] → Q.key a = none) → (readPairs Q l).1 = [] ∧ ∃ x, (readPairs Q l).2 = some x := by
    rintro _ ⟨e, r, rfl, h⟩
    unfold readPairs
    split
    · exact ⟨rfl, _, rfl⟩
    · rename_i a b he; rw [h a b he]; exact ⟨rfl, _, rfl⟩
    · exact ⟨rfl, _, rfl⟩
  have fin : ∀ l x, (readPairs Q l).1 = [] → (readPairs Q l).2 = some x → entriesOf v = some l → v ≠ .none → newData Q (.obj v) [] = .ok [(Q.noKey, v)] := by
    intro l x h1 h2 h3 h4
    have hd : dictOf Q v = ([], some x) := by simp [dictOf, h3, h1, h2, putAll]
    unfold newData
    cases v <;> first | exact absurd rfl h4 | simp [hd, putAll, put]
  cases v with
  | none => exact absurd hv id
  | dict l => exact absurd hv id
  | str s =>
    cases s with
    | nil => exact absurd rfl hv
    | cons c s => obtain ⟨h1, x, h2⟩ := key ((c :: s).map fun c => .str [c]) ⟨_, _, rfl, by intro a b h; simp [pairOf] at h⟩; exact fin _ x h1 h2 rfl (by simp)
  | list l => obtain ⟨h1, x, h2⟩ := key l hv; exact fin _ x h1 h2 rfl (by simp)
  | tuple l => obtain ⟨h1, x, h2⟩ := key l hv; exact fin _ x h1 h2 rfl (by simp)
  | _ => rfl

example (n : Nat) : Single (K := Nat) ⟨fun _ => some 7, 0, 1⟩ (.list [.int n]) ∧ Single (K := Nat) ⟨fun _ => none, 0, 1⟩ (.tuple [.tuple [.list [], .int 2]]) :=
  ⟨⟨_, _, rfl, by intro a b h; simp [pairOf] at h⟩, _, _, rfl, fun _ _ _ => rfl⟩

/-- Disagreement: an empty string, list or tuple given as the single object leaves an empty dictionary, the strings of a list with two characters each become items,
a list that begins with a pair is stored under `NoKey` but the pair has become an item as well, and with keywords an object that `dict` rejects with a ValueError is not taken at all. -/
theorem C64_single_wrong (Q : Keys K) (k : K) (v : DVal) :
    newData Q (.obj (.str [])) [] = .ok [] ∧ newData Q (.obj (.list [])) [] = .ok [] ∧
    (∀ a b, Q.key (.str [a]) = some k → newData Q (.obj (.list [.str [a, b]])) [] = .ok [(k, .str [b])]) ∧
    (∀ a b n, Q.key a = some k → k ≠ Q.noKey → newData Q (.obj (.list [.tuple [a, b], .int n])) [] = .ok [(k, b), (Q.noKey, .list [.tuple [a, b], .int n])]) ∧
    newData Q (.obj (.str ['a'])) [] = .ok [(Q.noKey, .str ['a'])] ∧ newData Q (.obj (.str ['a'])) [(k, v)] = .error .value := by
  refine ⟨rfl, rfl, ?_, ?_, rfl, ?_⟩
  · intro a b h
    simp [newData, dictOf, entriesOf, readPairs, pairOf, h, putAll, put]
  · intro a b n h hk
    simp [newData, dictOf, entriesOf, readPairs, pairOf, h, putAll, put, hk]
  · simp [newData, dictOf, entriesOf, readPairs, pairOf]

/-- Disagreement with "a model stored under a key guards and keeps its place": for every stored model `d[k] = v` overwrites the model without asking its validator,
and `del d[k]` and `pop` remove the model itself (`pop` delivers the model object, not its value). -/
theorem C64_guard_wrong (Q : Keys K) (W : World) (d : Items K) (k : K) (n : Nat) (m : LM) (_hn : W n = some m) (hk : look d k = some (.obj n)) (v : DVal) (e : LErr)
    (_he : m.validator v = .error e) (h : ¬ (k = Q.noKey ∧ v = .noValue)) :
    step Q (W, d) (.setItem k v) = (none, W, put d k v) ∧ look (put d k v) k = some v ∧
    pop d k none = (.ok (.obj n), erase d k) ∧ delItem d k = .ok (erase d k) := by
  refine ⟨?_, by rw [look_put, if_pos rfl], by simp [pop, hk], by simp [delItem, hk]⟩
  simp only [step]
  unfold setItem
  rw [if_neg (by rw [isNo_iff]; exact h)]

/-! ### C65: `update` -/

theorem model_put (W : World) (n : Nat) (m m0 : LM) (h : W n = some m0) (hv : m.validator = m0.validator) (v : DVal) :
    ((W.put n m).model? v).map (fun p => (p.1, p.2.validator)) = (W.model? v).map (fun p => (p.1, p.2.validator)) := by
  cases v <;> try rfl
  rename_i j
  simp only [World.model?, World.put]
  by_cases hj : j = n
  · subst hj; simp [h, hv]
  · simp [hj]

theorem set_validator (M : LM) (v : DVal) : (M.set v).2.validator = M.validator := by
  simpa only [LM.step] using (step_val M (.set v)).1

theorem model_some {W : World} {v : DVal} {n : Nat} {m : LM} (h : W.model? v = some (n, m)) : v = .obj n ∧ W n = some m := by
  cases v <;> simp [World.model?] at h
  obtain ⟨a, rfl⟩ := h
  exact ⟨rfl, a⟩

/-- the two worlds have the same model objects with the same validators -/
def SameVal (W W' : World) : Prop := ∀ v, (W'.model? v).map (fun p => (p.1, p.2.validator)) = (W.model? v).map (fun p => (p.1, p.2.validator))

theorem preCheck_congr {W W' : World} (h : SameVal W W') {d d' : Items K} {kv : K × DVal} (hl : look d' kv.1 = look d kv.1) : preCheck W' d' kv = preCheck W d kv := by
  have h1 := h kv.2
  unfold preCheck
  rw [hl]
  cases ha : W.model? kv.2 with
  | some p => cases hb : W'.model? kv.2 with
    | some q => rfl
    | none => rw [ha, hb] at h1; simp at h1
  | none => cases hb : W'.model? kv.2 with
    | some q => rw [ha, hb] at h1; simp at h1
    | none =>
      cases look d kv.1 with
      | none => rfl
      | some v =>
        have h2 := h v
        simp only
        cases hc : W.model? v with
        | none => cases hd : W'.model? v with
          | none => rfl
          | some q => rw [hc, hd] at h2; simp at h2
        | some p => cases hd : W'.model? v with
          | none => rw [hc, hd] at h2; simp at h2
          | some q =>
            rw [hc, hd] at h2
            simp only [Option.map_some, Option.some.injEq, Prod.mk.injEq] at h2
            simp only [h2.2]

/-- one item of the filling loop whose pre-check passed -/
theorem fillOne_ok {S : World × Items K} {kv : K × DVal} {m : Bool} (h : preCheck S.1 S.2 kv = .ok m) : (fillOne S kv m).1 = none ∧
    SameVal S.1 (fillOne S kv m).2.1 ∧ (∀ q, q ≠ kv.1 → look (fillOne S kv m).2.2 q = look S.2 q) ∧
    (m = true → ∃ n M w, look S.2 kv.1 = some (.obj n) ∧ S.1 n = some M ∧ M.validator kv.2 = .ok w ∧
      (fillOne S kv m).2.1 = S.1.put n (M.set kv.2).2 ∧ (fillOne S kv m).2.2 = if truthy M.value then S.2 else put S.2 kv.1 kv.2) ∧
    (m = false → (fillOne S kv m).2 = (S.1, put S.2 kv.1 kv.2)) := by
  cases m with
  | false => exact ⟨rfl, fun _ => rfl, fun q hq => by simp [fillOne, look_put, hq], by simp, fun _ => rfl⟩
  | true =>
    unfold preCheck at h
    split at h
    · simp at h
    · split at h
      · simp at h
      · rename_i v hv
        split at h
        · simp at h
        · rename_i n M hm
          split at h
          · rename_i w hw
            obtain ⟨rfl, hn⟩ := model_some hm
            have hset : ∃ M', M.set kv.2 = (.ok M.value, M') := by
              unfold LM.set
              split
              · exact ⟨_, rfl⟩
              · rw [hw]; exact ⟨_, rfl⟩
            obtain ⟨M', hM'⟩ := hset
            have e : fillOne S kv true = (none, S.1.put n M', if truthy M.value then S.2 else put S.2 kv.1 kv.2) := by
              simp only [fillOne, if_true, hv, hm, hM']
            rw [e]
            refine ⟨rfl, ?_, ?_, fun _ => ⟨n, M, w, hv, hn, hw, by rw [hM'], rfl⟩, by simp⟩
            · have := set_validator M kv.2
              rw [hM'] at this
              exact model_put S.1 n M' M hn this
            · intro q hq
              simp only
              split
              · rfl
              · rw [look_put, if_neg hq]
          all_goals simp at h

theorem SameVal.trans {W W' W'' : World} (h : SameVal W W') (h' : SameVal W' W'') : SameVal W W'' := fun v => (h' v).trans (h v)

theorem preChecks_cons {W : World} {d : Items K} {kv : K × DVal} {h : Items K} {ms : List Bool} (e : preChecks W d (kv :: h) = .ok ms) :
    ∃ b bs, ms = b :: bs ∧ preCheck W d kv = .ok b ∧ preChecks W d h = .ok bs := by
  simp only [preChecks] at e
  split at e
  · simp at e
  · rename_i b hb
    cases hr : preChecks W d h with
    | error x => rw [hr] at e; simp [Except.map] at e
    | ok bs => rw [hr] at e; simp only [Except.map, Except.ok.injEq] at e; exact ⟨b, bs, e.symm, hb, rfl⟩

theorem preChecks_congr {W W' : World} (hW : SameVal W W') {d d' : Items K} {h : Items K} (hl : ∀ kv ∈ h, look d' kv.1 = look d kv.1) : preChecks W' d' h = preChecks W d h := by
  induction h with
  | nil => rfl
  | cons a r ih =>
    simp only [preChecks, preCheck_congr hW (hl a (List.mem_cons_self)), ih fun kv hkv => hl kv (List.mem_cons_of_mem _ hkv)]

/-- the filling loop after the pre-check: no exception, and every item is dealt with in a state where nothing was done to its key yet -/
theorem fill_ok {h : Items K} (hh : (h.map (·.1)).Nodup) {S : World × Items K} {ms : List Bool} (hms : preChecks S.1 S.2 h = .ok ms) :
    (fill S (h.zip ms)).1 = none ∧ SameVal S.1 (fill S (h.zip ms)).2.1 ∧ (∀ q, q ∉ h.map (·.1) → look (fill S (h.zip ms)).2.2 q = look S.2 q) := by
  induction h generalizing S ms with
  | nil => exact ⟨rfl, fun _ => rfl, fun _ _ => rfl⟩
  | cons a r ih =>
    obtain ⟨b, bs, rfl, hb, hbs⟩ := preChecks_cons hms
    simp only [List.map_cons, List.nodup_cons] at hh
    obtain ⟨h1, h2, h3, _, _⟩ := fillOne_ok hb
    have e : fill S ((a :: r).zip (b :: bs)) = fill (fillOne S a b).2 (r.zip bs) := by
      simp only [List.zip_cons_cons, fill]
      split
      · rename_i x S' hx; rw [hx] at h1; simp at h1
      · rename_i S' hx; rw [hx]
    rw [e]
    have hc : preChecks (fillOne S a b).2.1 (fillOne S a b).2.2 r = .ok bs := by
      rw [← hbs]
      refine preChecks_congr h2 fun kv hkv => h3 _ ?_
      intro hk
      exact hh.1 (hk ▸ List.mem_map_of_mem (f := (·.1)) hkv)
    obtain ⟨g1, g2, g3⟩ := ih hh.2 hc
    refine ⟨g1, h2.trans g2, ?_⟩
    intro q hq
    simp only [List.map_cons, List.mem_cons, not_or] at hq
    rw [g3 q hq.2, h3 q hq.1]

/-- C65: an `update` that raises – for whatever item – has changed nothing: no entry and no model object. -/
theorem C65_update_atomic (Q : Keys K) (S : World × Items K) (s : Seq K) (hs : s.IsDict) (kw : Items K) (rm : Option Bool) (e : LErr)
    (h : (update Q S s kw rm).1 = some e) : (update Q S s kw rm).2 = S := by
  unfold update at h ⊢
  split
  · simp only at h
    split
    · rfl
    · rename_i d hd; simp only [hd] at h; simp at h
  · rename_i hrm
    split
    · rfl
    · rename_i x hx
      split
      · rfl
      · rename_i ms hms
        exfalso
        have := (fill_ok (nodup_newData hs hx) hms).1
        split at h
        · rename_i rm; exact hrm rfl
        · rw [hx] at h
          simp only [hms] at h
          rw [this] at h
          simp at h

/-- model object n is touched only through its keys -/
theorem fill_world {h : Items K} (hh : (h.map (·.1)).Nodup) {S : World × Items K} {ms : List Bool} (hms : preChecks S.1 S.2 h = .ok ms) (n : Nat)
    (hn : ∀ kv ∈ h, look S.2 kv.1 ≠ some (.obj n)) : (fill S (h.zip ms)).2.1 n = S.1 n := by
  induction h generalizing S ms with
  | nil => rfl
  | cons a r ih =>
    obtain ⟨b, bs, rfl, hb, hbs⟩ := preChecks_cons hms
    simp only [List.map_cons, List.nodup_cons] at hh
    obtain ⟨h1, h2, h3, h4, h5⟩ := fillOne_ok hb
    have e : fill S ((a :: r).zip (b :: bs)) = fill (fillOne S a b).2 (r.zip bs) := by
      simp only [List.zip_cons_cons, fill]
      split
      · rename_i x S' hx; rw [hx] at h1; simp at h1
      · rename_i S' hx; rw [hx]
    have hr : ∀ kv ∈ r, look (fillOne S a b).2.2 kv.1 = look S.2 kv.1 := fun kv hkv => h3 _ fun hk => hh.1 (hk ▸ List.mem_map_of_mem (f := (·.1)) hkv)
    rw [e, ih hh.2 (by rw [← hbs]; exact preChecks_congr h2 hr) fun kv hkv => by rw [hr kv hkv]; exact hn kv (List.mem_cons_of_mem _ hkv)]
    cases b with
    | false => rw [h5 rfl]
    | true =>
      obtain ⟨j, M, w, hj, _, _, hw, _⟩ := h4 rfl
      rw [hw]
      unfold World.put
      rw [if_neg]
      rintro rfl
      exact hn a (List.mem_cons_self) hj

theorem SameVal.isSome {W W' : World} (h : SameVal W W') (v : DVal) : (W'.model? v).isSome = (W.model? v).isSome := by
  have := congrArg Option.isSome (h v)
  simpa using this

theorem fill_item {h : Items K} (hh : (h.map (·.1)).Nodup) {S : World × Items K} {ms : List Bool} (hms : preChecks S.1 S.2 h = .ok ms) {k : K} {v : DVal} (hk : (k, v) ∈ h)
    (hu : ∀ n, (S.1.model? (.obj n)).isSome = true → look S.2 k = some (.obj n) → ∀ kv ∈ h, kv.1 ≠ k → look S.2 kv.1 ≠ some (.obj n)) :
    (preCheck S.1 S.2 (k, v) = .ok false ∧ look (fill S (h.zip ms)).2.2 k = some v) ∨
    (∃ n M w, look S.2 k = some (.obj n) ∧ S.1 n = some M ∧ M.validator v = .ok w ∧ preCheck S.1 S.2 (k, v) = .ok true ∧
      look (fill S (h.zip ms)).2.2 k = (if truthy M.value then some (.obj n) else some v) ∧ (fill S (h.zip ms)).2.1 n = some (M.set v).2) := by
  induction h generalizing S ms with
  | nil => simp at hk
  | cons a r ih =>
    obtain ⟨b, bs, rfl, hb, hbs⟩ := preChecks_cons hms
    simp only [List.map_cons, List.nodup_cons] at hh
    obtain ⟨h1, h2, h3, h4, h5⟩ := fillOne_ok hb
    have e : fill S ((a :: r).zip (b :: bs)) = fill (fillOne S a b).2 (r.zip bs) := by
      simp only [List.zip_cons_cons, fill]
      split
      · rename_i x S' hx; rw [hx] at h1; simp at h1
      · rename_i S' hx; rw [hx]
    have hr : ∀ kv ∈ r, look (fillOne S a b).2.2 kv.1 = look S.2 kv.1 := fun kv hkv => h3 _ fun hk => hh.1 (hk ▸ List.mem_map_of_mem (f := (·.1)) hkv)
    have hc : preChecks (fillOne S a b).2.1 (fillOne S a b).2.2 r = .ok bs := by rw [← hbs]; exact preChecks_congr h2 hr
    rw [e]
    rcases List.mem_cons.1 hk with rfl | hk'
    · have hl := (fill_ok hh.2 hc).2.2 k hh.1
      cases b with
      | false => exact .inl ⟨hb, by rw [hl, h5 rfl]; simp [look_put]⟩
      | true =>
        obtain ⟨n, M, w, g1, g2, g3, g4, g5⟩ := h4 rfl
        refine .inr ⟨n, M, w, g1, g2, g3, hb, ?_, ?_⟩
        · rw [hl, g5]
          split
          · exact g1
          · simp [look_put]
        · rw [fill_world hh.2 hc n]
          · rw [g4]; simp [World.put]
          · intro kv hkv
            rw [hr kv hkv]
            refine hu n (by simp [World.model?, g2]) g1 kv (List.mem_cons_of_mem _ hkv) ?_
            rintro rfl
            exact hh.1 (List.mem_map_of_mem (f := (·.1)) hkv)
    · have hne : a.1 ≠ k := by rintro rfl; exact hh.1 (List.mem_map_of_mem (f := (·.1)) hk')
      have hlk : look (fillOne S a b).2.2 k = look S.2 k := h3 k (Ne.symm hne)
      have hsame := preCheck_congr h2 (kv := (k, v)) hlk
      rcases ih hh.2 hc hk' (by
        intro n hn hl kv hkv hkn
        rw [hr kv hkv]
        rw [h2.isSome] at hn
        rw [hlk] at hl
        exact hu n hn hl kv (List.mem_cons_of_mem _ hkv) hkn) with ⟨i1, i2⟩ | ⟨n, M, w, i1, i2, i3, i4, i5, i6⟩
      · exact .inl ⟨hsame.symm.trans i1, i2⟩
      · rw [hlk] at i1
        have hs : (S.1.model? (.obj n)).isSome = true := by rw [← h2.isSome]; simp [World.model?, i2]
        have hW : (fillOne S a b).2.1 n = S.1 n := by
          cases b with
          | false => rw [h5 rfl]
          | true =>
            obtain ⟨j, M0, w0, g1, g2, g3, g4, g5⟩ := h4 rfl
            rw [g4]; unfold World.put
            rw [if_neg]
            rintro rfl
            exact hu n hs i1 a (List.mem_cons_self) hne g1
        exact .inr ⟨n, M, w, i1, hW ▸ i2, i3, hsame ▸ i4, i5, i6⟩

/-- the model object M with number n stands under key k -/
def ModelAt (S : World × Items K) (k : K) (n : Nat) (M : LM) : Prop := look S.2 k = some (.obj n) ∧ S.1 n = some M

/-- C65, what a successful `update` does (no model object under two keys; x: what the arguments say): other keys are as before; a key without model, or one given a
model object, gets the object; a model whose validator accepts the value takes it over, and stays under its key if its old value was not a false one. -/
theorem C65_update_partial (Q : Keys K) (S : World × Items K) (s : Seq K) (hs : s.IsDict) (kw x : Items K) (hx : newData Q s kw = .ok x)
    (hu : ∀ k k' n M, ModelAt S k n M → ModelAt S k' n M → k = k') (h : (update Q S s kw none).1 = none) :
    (∀ q, q ∉ x.map (·.1) → look (update Q S s kw none).2.2 q = look S.2 q) ∧
    ∀ k v, (k, v) ∈ x →
      (((∀ n M, ¬ ModelAt S k n M) ∨ (S.1.model? v).isSome = true) → look (update Q S s kw none).2.2 k = some v) ∧
      (∀ n M w, ModelAt S k n M → S.1.model? v = none → v ≠ .noValue → M.validator v = .ok w → ∃ M', (update Q S s kw none).2.1 n = some M' ∧ M'.value = w ∧ M'.validator = M.validator ∧
        (truthy M.value = true → look (update Q S s kw none).2.2 k = some (.obj n))) := by
  have hn := nodup_newData hs hx
  obtain ⟨ms, hms, e⟩ : ∃ ms, preChecks S.1 S.2 x = .ok ms ∧ update Q S s kw none = fill S (x.zip ms) := by
    unfold update at h ⊢
    simp only [reduceCtorEq, if_false, List.append_nil, hx] at h ⊢
    cases hp : preChecks S.1 S.2 x with
    | error e => rw [hp] at h; simp at h
    | ok ms => exact ⟨ms, rfl, rfl⟩
  rw [e]
  refine ⟨(fill_ok hn hms).2.2, ?_⟩
  intro k v hk
  have hit := fill_item hn hms hk (by
    intro n hn hl kv hkv hkn hl'
    simp only [World.model?, Option.isSome_map] at hn
    obtain ⟨M, hM⟩ := Option.isSome_iff_exists.1 hn
    exact hkn (hu _ _ n M ⟨hl', hM⟩ ⟨hl, hM⟩))
  constructor
  · intro hc
    rcases hit with ⟨_, h2⟩ | ⟨n, M, w, g1, g2, g3, g4, g5, g6⟩
    · exact h2
    · rcases hc with hc | hc
      · exact absurd ⟨g1, g2⟩ (hc n M)
      · obtain ⟨p, hp⟩ := Option.isSome_iff_exists.1 hc
        simp [preCheck, hp] at g4
  · intro n M w ⟨hm1, hm2⟩ hv hvn hw
    rcases hit with ⟨h1, _⟩ | ⟨n', M', w', g1, g2, g3, g4, g5, g6⟩
    · have hmod : S.1.model? (.obj n) = some (n, M) := by simp [World.model?, hm2]
      simp [preCheck, hv, hm1, hmod, hw] at h1
    · rw [hm1] at g1; simp only [Option.some.injEq, DVal.obj.injEq] at g1; subst g1
      rw [hm2] at g2; simp only [Option.some.injEq] at g2; subst g2
      refine ⟨_, g6, ((C63_set M v hvn).2 w hw).2, set_validator M v, ?_⟩
      intro ht; rw [g5, if_pos ht]

/-- C65: `d.update(x, replace_models=True)` gives every given key the given object – models are replaced, not filled – and leaves all other keys and all models alone; it fails only if the argument cannot be
read, and then nothing changes. -/
theorem C65_update_replace (Q : Keys K) (S : World × Items K) (s : Seq K) (hs : s.IsDict) (kw : Items K) :
    (∀ e, newData Q s kw = .error e → update Q S s kw (some true) = (some e, S)) ∧
    ∀ x, newData Q s kw = .ok x → (update Q S s kw (some true)).1 = none ∧ (update Q S s kw (some true)).2.1 = S.1 ∧
      (∀ q, q ∉ x.map (·.1) → look (update Q S s kw (some true)).2.2 q = look S.2 q) ∧ ∀ k v, (k, v) ∈ x → look (update Q S s kw (some true)).2.2 k = some v := by
  refine ⟨fun e he => by simp [update, he], fun x hx => ?_⟩
  have e : update Q S s kw (some true) = (none, S.1, putAll S.2 x) := by simp [update, hx]
  rw [e]
  exact ⟨rfl, rfl, fun q hq => look_putAll_not hq _, fun k v hk => look_putAll (nodup_newData hs hx) hk _⟩

/-- Disagreement: a model whose old value is a false one (0, "", [], …) is replaced by the plain value; a value the validator rejects with a KeyError or AttributeError
is not rejected but replaces the model; `replace_models=False` is stored as an item. -/
theorem C65_update_wrong (Q : Keys K) (S : World × Items K) (k : K) (n : Nat) (M : LM) (hm : ModelAt S k n M) (v : DVal) (hv : S.1.model? v = none) :
    (∀ w, M.validator v = .ok w → truthy M.value = false → look (update Q S (.data [(k, v)]) [] none).2.2 k = some v) ∧
    (M.validator v = .error .key → update Q S (.data [(k, v)]) [] none = (none, S.1, put S.2 k v)) ∧
    (k ≠ Q.replace → S.2.length = 1 → ((update Q S (.data []) [] (some false)).2.2).map (·.1) = [k, Q.replace]) := by
  obtain ⟨hm1, hm2⟩ := hm
  have hmod : S.1.model? (.obj n) = some (n, M) := by simp [World.model?, hm2]
  refine ⟨?_, ?_, ?_⟩
  · intro w hw ht
    have hset : ∃ M', M.set v = (.ok M.value, M') := by
      unfold LM.set
      split
      · exact ⟨_, rfl⟩
      · rw [hw]; exact ⟨_, rfl⟩
    obtain ⟨M', hM'⟩ := hset
    simp [update, newData, putAll, preChecks, preCheck, hv, hm1, hmod, hw, Except.map, fill, fillOne, hM', ht, look_put]
  · intro he
    simp [update, newData, putAll, preChecks, preCheck, hv, hm1, hmod, he, Except.map, fill, fillOne]
  · intro hr hl
    obtain ⟨W, d⟩ := S
    obtain ⟨⟨a, b⟩, rfl⟩ := List.length_eq_one_iff.1 hl
    have : a = k := by
      simp only [look] at hm1
      split at hm1
      · assumption
      · simp at hm1
    subst this
    simp [update, newData, putAll, put, preChecks, preCheck, World.model?, look, hr, Except.map, fill, fillOne]

theorem clearModels_same (d : Items K) (W : World) (n : Nat) : ((∃ k, (k, DVal.obj n) ∈ d) → ∀ M, W n = some M → ∃ M', clearModels W d n = some M' ∧ M'.value = .noValue ∧ M'.validator = M.validator) ∧
    ((¬ ∃ k, (k, DVal.obj n) ∈ d) → clearModels W d n = W n) := by
  induction d generalizing W with
  | nil => exact ⟨by simp, fun _ => rfl⟩
  | cons a r ih =>
    obtain ⟨k, v⟩ := a
    simp only [clearModels]
    cases hm : W.model? v with
    | none =>
      simp only
      refine ⟨?_, fun h => (ih W).2 fun ⟨q, hq⟩ => h ⟨q, List.mem_cons_of_mem _ hq⟩⟩
      rintro ⟨q, hq⟩ M hM
      rcases List.mem_cons.1 hq with h | h
      · obtain ⟨rfl, rfl⟩ := Prod.mk.injEq .. ▸ h
        simp [World.model?, hM] at hm
      · exact (ih W).1 ⟨q, h⟩ M hM
    | some p =>
      obtain ⟨j, m⟩ := p
      obtain ⟨rfl, hj⟩ := model_some hm
      simp only
      by_cases hjn : n = j
      · subst hjn
        refine ⟨?_, fun h => absurd ⟨k, List.mem_cons_self⟩ h⟩
        intro _ M hM
        rw [hj] at hM; simp only [Option.some.injEq] at hM; subst hM
        by_cases hr : ∃ q, (q, DVal.obj n) ∈ r
        · exact (ih (W.put n m.clear.2)).1 hr m.clear.2 (by simp [World.put])
        · rw [(ih (W.put n m.clear.2)).2 hr]
          exact ⟨m.clear.2, by simp [World.put], rfl, rfl⟩
      · have e : (W.put j m.clear.2) n = W n := by simp [World.put, hjn]
        refine ⟨?_, ?_⟩
        · rintro ⟨q, hq⟩ M hM
          refine (ih (W.put j m.clear.2)).1 ?_ M (e.trans hM)
          rcases List.mem_cons.1 hq with h | h
          · simp only [Prod.mk.injEq, DVal.obj.injEq] at h; exact absurd h.2 hjn
          · exact ⟨q, h⟩
        · intro h
          rw [(ih (W.put j m.clear.2)).2 fun ⟨q, hq⟩ => h ⟨q, List.mem_cons_of_mem _ hq⟩, e]

theorem putAll_self (l d : Items K) (h : ((d ++ l).map (·.1)).Nodup) : putAll d l = d ++ l := by
  unfold putAll
  induction l generalizing d with
  | nil => simp
  | cons a r ih =>
    have hp : put d a.1 a.2 = d ++ [a] := by
      have hn : a.1 ∉ d.map (·.1) := by
        rw [List.map_append, List.nodup_append] at h
        exact fun hc => h.2.2 _ hc _ (by simp) rfl
      clear ih h
      induction d with
      | nil => rfl
      | cons b d ih =>
        simp only [List.map_cons, List.mem_cons, not_or] at hn
        simp only [put, if_neg (Ne.symm hn.1), List.cons_append]
        rw [ih hn.2]
    simp only [List.foldl_cons, hp]
    rw [ih _ (by simpa using h)]
    simp

/-- C64: `clear(values_only=True)` keeps exactly the entries that are models, in order, and empties those models and no others; `clear()` leaves nothing. -/
theorem C64_clear (W : World) (d : Items K) (hd : (d.map (·.1)).Nodup) : clear W d false = (W, []) ∧
    (clear W d true).2 = d.filter (fun kv => (W.model? kv.2).isSome) ∧
    (∀ k n M, ModelAt (W, d) k n M → ∃ M', (clear W d true).1 n = some M' ∧ M'.value = .noValue ∧ M'.validator = M.validator) ∧
    (∀ n, (∀ k M, ¬ ModelAt (W, d) k n M) → (clear W d true).1 n = W n) := by
  refine ⟨rfl, ?_, ?_, ?_⟩
  · show putAll [] _ = _
    rw [putAll_self _ _ (by simpa using nodup_sub hd (List.filter_sublist (l := d)))]
    rfl
  · rintro k n M ⟨h1, h2⟩
    exact (clearModels_same d W n).1 ⟨k, (look_some hd).1 h1⟩ M h2
  · intro n h
    by_cases hW : ∃ M, W n = some M
    · obtain ⟨M, hM⟩ := hW
      exact (clearModels_same d W n).2 fun ⟨k, hk⟩ => h k M ⟨(look_some hd).2 hk, hM⟩
    · have hN : W n = none := by
        cases hq : W n with
        | none => rfl
        | some M => exact absurd ⟨M, hq⟩ hW
      by_cases hr : ∃ k, (k, DVal.obj n) ∈ d
      · show clearModels W d n = W n
        clear h hr hd
        induction d generalizing W with
        | nil => rfl
        | cons a r ih =>
          obtain ⟨k, v⟩ := a
          simp only [clearModels]
          cases hm : W.model? v with
          | none => exact ih W hW hN
          | some p =>
            obtain ⟨j, m⟩ := p
            obtain ⟨rfl, hj⟩ := model_some hm
            have hne : n ≠ j := by rintro rfl; rw [hN] at hj; simp at hj
            have e : (W.put j m.clear.2) n = W n := by simp [World.put, hne]
            simp only
            rw [ih _ (by rw [e]; exact hW) (e.trans hN), e]
      · exact (clearModels_same d W n).2 hr

/-! ### C66: the read-only dictionary -/

/-- C66, for histories without the inherited `popitem` and `setdefault`: an `iTDataReadOnly` object and the models in it are never changed, every call raises PermissionError. -/
theorem C66_read_only_partial (Q : Keys K) (S : World × Items K) (ops : List (DOp K)) (h1 : DOp.popitem ∉ ops) (h2 : ∀ k v, DOp.setdefault k v ∉ ops) :
    runOps (stepReadOnly Q) S ops = S ∧ ∀ o ∈ ops, stepReadOnly Q S o = (some .permission, S) := by
  have key : ∀ o ∈ ops, ∀ S, stepReadOnly Q S o = (some .permission, S) := by
    intro o ho S
    cases o with
    | popitem => exact absurd ho h1
    | setdefault k v => exact absurd ho (h2 k v)
    | _ => rfl
  refine ⟨?_, fun o ho => key o ho S⟩
  clear h1 h2
  induction ops with
  | nil => rfl
  | cons o os ih =>
    show runOps (stepReadOnly Q) (stepReadOnly Q S o).2 os = S
    rw [key o (List.mem_cons_self)]
    exact ih fun o ho => key o (List.mem_cons_of_mem _ ho)

/-- Disagreement: `setdefault` adds any new key to any read-only object and `popitem` takes the last entry of any non-empty one. -/
theorem C66_read_only_wrong (Q : Keys K) (W : World) (d : Items K) (k : K) (v : DVal) (hk : k ∉ d.map (·.1)) :
    stepReadOnly Q (W, d) (.setdefault k v) = (none, W, put d k v) ∧ look (put d k v) k = some v ∧
    stepReadOnly Q (W, put d k v) .popitem = (none, W, (put d k v).dropLast) := by
  refine ⟨by simp [stepReadOnly, step, setdefault, look_none.2 hk], by rw [look_put, if_pos rfl], ?_⟩
  have : put d k v ≠ [] := by cases d <;> simp [put]; split <;> simp
  simp [stepReadOnly, step, popitem, this]

/-! ### cases that meet the hypotheses -/

/-- keys are numbers; integers and one-character strings are hashable -/
def q0 : Keys Nat := ⟨fun v => match v with | .int z => some (z.toNat + 2) | .str [c] => some (c.toNat + 100) | _ => none, 0, 1⟩
/-- two models: number 3 in object 0, number 0 in object 1 -/
def w0 : World := fun n => if n = 0 then some (small (.int 3)) else if n = 1 then some (small (.int 0)) else none
/-- a dictionary with a plain value and two models -/
def d0 : Items Nat := [(5, .int 1), (6, .obj 0), (7, .obj 1)]

example : newData q0 (.data d0) [] = .ok d0 ∧ (d0.map (·.1)).Nodup := ⟨rfl, by decide⟩
example : newData q0 (.obj (.list [.tuple [.int 1, .int 2], .list [.int 1, .int 5]])) [(9, .none)] = .ok [(3, .int 5), (9, .none)] := rfl
example : (update q0 (w0, d0) (.data [(5, .int 8), (6, .int 12)]) [] none).1 = some .value ∧ look (update q0 (w0, d0) (.data [(5, .int 8), (6, .int 12)]) [] none).2.2 5 = some (.int 1) := ⟨rfl, rfl⟩
example : ModelAt (w0, d0) 6 0 (small (.int 3)) ∧ (update q0 (w0, d0) (.data [(5, .int 8), (6, .int 9)]) [] none).1 = none ∧
    getItem (update q0 (w0, d0) (.data [(5, .int 8), (6, .int 9)]) [] none).2.1 (update q0 (w0, d0) (.data [(5, .int 8), (6, .int 9)]) [] none).2.2 6 = .ok (.int 9) ∧
    getFull (update q0 (w0, d0) (.data [(5, .int 8), (6, .int 9)]) [] none).2.2 6 = .ok (.obj 0) ∧
    getFull (update q0 (w0, d0) (.data [(7, .int 9)]) [] none).2.2 7 = .ok (.int 9) := ⟨⟨rfl, rfl⟩, rfl, rfl, rfl, rfl⟩
example : (clear w0 d0 true).2 = [(6, .obj 0), (7, .obj 1)] ∧ modelItems w0 d0 = [(5, .int 1), (6, .int 3), (7, .int 0)] := ⟨rfl, rfl⟩
example : (step q0 (w0, d0) (.setItem 6 (.int 99))).2.2 = [(5, .int 1), (6, .int 99), (7, .obj 1)] := rfl

end Legacy
