import Verif.Proofs.DataModel
/-
C42 value models, C43 shapes.
-/
namespace DModels

/-! ### C43 -/

/-- C43: the shape check accepts exactly the documented shapes (for every model shape except the one-element shape `(Any,)`, see below). -/
theorem C43_shape_partial (T : List Dim) (V : List Nat) (hT : T ≠ [.any]) : (∃ b, checkShape T V = .ok b) ↔ FitsShape T V := by
  rw [checkShape_iff, FitsShape]
  refine and_congr_right fun _ => or_congr_right (or_congr_right ?_)
  constructor
  · rintro ⟨h1, h2, h3⟩
    refine ⟨h1, ?_, h3⟩
    match T, h2, h3, hT with
    | [t], _, h3, hT => simp at h3; subst h3; exact absurd rfl hT
    | _ :: _ :: _, _, _, _ => simp
  · rintro ⟨h1, h2, h3⟩
    exact ⟨h1, by rintro rfl; simp at h2, h3⟩

/-- C43: whatever the shape, every documented value is accepted and no dimension of an accepted value exceeds its limit -/
theorem C43_shape_sound (T : List Dim) (V : List Nat) :
    (FitsShape T V → ∃ b, checkShape T V = .ok b) ∧ ((∃ b, checkShape T V = .ok b) → ∀ (i : Nat) n s, T[i]? = some (.int n) → V[i]? = some s → (s : Int) ≤ n) := by
  rw [checkShape_iff, FitsShape]
  refine ⟨?_, fun h i n s ht hs => h.1 i _ s ht hs⟩
  rintro ⟨h1, h | h | ⟨h2, h3, h4⟩⟩
  · exact ⟨h1, .inl h⟩
  · exact ⟨h1, .inr (.inl h)⟩
  · exact ⟨h1, .inr (.inr ⟨h2, by rintro rfl; simp at h3, h4⟩)⟩

/-- Disagreement: `shape=(Any,)` is documented as "single values or any 1 dimensional object" but values with any number of dimensions are accepted. -/
theorem C43_any_wrong (V : List Nat) : (∃ b, checkShape [.any] V = .ok b) ∧ ¬ FitsShape [.any] [2, 2] := by
  constructor
  · rw [checkShape_iff]
    refine ⟨?_, ?_⟩
    · intro i t s ht _
      cases i with
      | zero => simp at ht; subst ht; trivial
      | succ i => simp at ht
    · match V with
      | [] => simp
      | [_] => simp
      | _ :: _ :: _ => simp
  · rintro ⟨_, h | h | h⟩ <;> simp at h

/-- C43: the measured shape of a value (without one-character strings) is, dimension by dimension, the largest size found at that depth; it ends at the first empty dimension. -/
theorem C43_measure_partial (v : DVal) (hn : v.NoChar) (k : Nat) :
    (maxShape v.depth v)[k]? = if v.maxSize k = 0 then Option.none else some (v.maxSize k) := by
  have h := maxShape_spec v.depth v (Nat.le_refl _) hn k
  rw [List.getD_eq_getElem?_getD] at h
  cases hk : (maxShape v.depth v)[k]? with
  | none => rw [hk] at h; simp at h; simp [← h]
  | some s =>
    rw [hk] at h
    simp at h
    have := maxShape_pos v.depth v s (List.mem_of_getElem? hk)
    rw [← h, if_neg (by omega)]

/-- Disagreement: a one-character string is a value without dimension, but a list of one-character strings is measured as a two-dimensional object: `["a"]` has
the same shape as `[["a"]]` and is rejected by `shape=(INF,)` and also by the shape `(4,)`. -/
theorem C43_one_char_wrong : maxShape 9 (.str ['a']) = [] ∧ maxShape 9 (.list [.str ['a']]) = [1, 1] ∧ maxShape 9 (.list [.list [.str ['a']]]) = [1, 1] ∧
    checkShape [.inf] [1, 1] = .error .value := by
  refine ⟨?_, ?_, ?_, ?_⟩
  · simp [maxShape]
  · simp [maxShape, DVal.elems, zipLongest, maxOf, List.range_succ, mergeMax]
  · simp [maxShape, DVal.elems, zipLongest, maxOf, List.range_succ, mergeMax]
  · rfl

/-- examples of the documentation -/
example : maxShape 9 (.list [.str "one".toList, .str "two".toList, .str "three".toList]) = [3, 5] := by decide +kernel
example : checkShape [.int 3, .int 4] [2, 2] = .ok true ∧ checkShape [.int 4, .any, .inf] [2] = .ok true ∧ checkShape [.int 4, .any, .inf] [2, 2] = .error .value ∧
    checkShape [.int 4, .any, .inf] [2, 2, 7] = .ok true ∧ checkShape [.int 4, .any] [1, 1, 2, 3] = .ok true ∧ checkShape [] [] = .ok true ∧ checkShape [] [1] = .error .value := by decide +kernel
example : FitsShape [.int 4, .any] [1, 9, 2] := ⟨by
  intro i t s ht hs
  match i with
  | 0 => simp at ht hs; subst ht hs; simp [Dim.Allows]
  | 1 => simp at ht hs; subst ht hs; trivial
  | i + 2 => simp at ht, .inr (.inr (by simp))⟩

/-! ### C42 -/

/-- the value is acceptable for the model: good items, and the measured dimensions pass the shape -/
def Accepted (S : Spec) (w : DVal) : Prop :=
  GoodItems S w ∧ ∀ T, S.shape = some T →
    (∀ (i : Nat) t s, T[i]? = some t → (maxShape w.depth w)[i]? = some s → Dim.Allows t s) ∧ ((T ≠ [.any]) → FitsShape T (maxShape w.depth w))

theorem verify_accepted {S : Spec} {v w : DVal} (h : S.verify v = .ok w) : Accepted S w := by
  unfold Spec.verify at h
  split at h
  · simp at h
  · rename_i w' hw
    have hg := check_good v.depth v w' (Nat.le_refl _) hw
    split at h
    · rename_i hs
      simp only [Except.ok.injEq] at h; subst h
      exact ⟨hg, by simp [hs]⟩
    · rename_i T hs
      split at h
      · rename_i b hb
        simp only [Except.ok.injEq] at h; subst h
        refine ⟨hg, ?_⟩
        intro T' hT'
        rw [hs] at hT'; cases hT'
        exact ⟨((checkShape_iff T _).1 ⟨b, hb⟩).1, fun hne => (C43_shape_partial T _ hne).1 ⟨b, hb⟩⟩
      · simp at h

theorem set_cases (M : VM) (v : DVal) : ((M.set v).2.value = M.value ∨ ((M.set v).2.value = v ∧ v = .noValue) ∨ ∃ w, M.spec.verify v = .ok w ∧ (M.set v).2.value = w) ∧ (M.set v).2.spec = M.spec := by
  unfold VM.set VM.probe
  by_cases hv : v.isNo = true
  · have : v = .noValue := by cases v <;> simp [DVal.isNo] at hv ⊢
    subst this
    simp only [if_pos hv]
    cases M.last <;> simp
  · simp only [if_neg hv]
    cases hS : M.spec.verify v <;> simp

/-- C42: after any history of `set`, `in`-tests and `clear` on a model made by the constructor the stored value is `NoValue` or acceptable for the model. -/
theorem C42_history (S : Spec) (v : DVal) (M : VM) (hM : VM.new S v = .ok M) (ops : List Op) : (M.run ops).value = .noValue ∨ Accepted S (M.run ops).value := by
  have h0 : M.spec = S ∧ (M.value = .noValue ∨ Accepted S M.value) := by
    unfold VM.new at hM
    split at hM
    · simp only [Except.ok.injEq] at hM; subst hM; exact ⟨rfl, .inl rfl⟩
    · split at hM
      · rename_i w hw; simp only [Except.ok.injEq] at hM; subst hM; exact ⟨rfl, .inr (verify_accepted hw)⟩
      · simp at hM
  clear hM
  induction ops generalizing M with
  | nil => exact h0.2
  | cons o os ih =>
    refine ih _ ?_
    obtain ⟨hs, hv⟩ := h0
    cases o with
    | set x =>
      obtain ⟨h1, h2⟩ := set_cases M x
      refine ⟨h2.trans hs, ?_⟩
      simp only [VM.step]
      rcases h1 with h | ⟨h, hx⟩ | ⟨w, hw, h⟩
      · rw [h]; exact hv
      · rw [h]; exact .inl hx
      · rw [h]; rw [hs] at hw; exact .inr (verify_accepted hw)
    | test x =>
      simp only [VM.step, VM.test]
      split
      · exact ⟨hs, hv⟩
      · split <;> exact ⟨hs, hv⟩
    | clear => exact ⟨hs, .inl rfl⟩

/-- C42: a value `v` that the model does not accept (`v in model` is False) makes `set` raise and changes nothing that is stored; an accepted value is stored (in its cast form) and
`set` returns the old value.  (For `NoValue` see below.) -/
theorem C42_set_partial (M : VM) (v : DVal) (hv : v ≠ .noValue) :
    ((M.test v).1 = false → (∃ e, (M.set v).1 = .error e ∧ M.spec.verify v = .error e) ∧ (M.set v).2.value = M.value) ∧
    ((M.test v).1 = true → (M.set v).1 = .ok M.value ∧ M.spec.verify v = .ok (M.set v).2.value) := by
  have hno : ¬ v.isNo = true := by cases v <;> simp_all [DVal.isNo]
  unfold VM.test VM.set VM.probe
  simp only [if_neg hno]
  cases hS : M.spec.verify v <;> simp

/-- C42: a test with `in` never changes the stored value -/
theorem C42_test (M : VM) (v : DVal) : (M.test v).2.value = M.value ∧ (M.test v).2.spec = M.spec := by
  unfold VM.test
  split
  · exact ⟨rfl, rfl⟩
  · split <;> exact ⟨rfl, rfl⟩

/-- C42: the constructor refuses a value the model does not accept (with AttributeError, not ValueError) -/
theorem C42_constructor (S : Spec) (v : DVal) (hv : v ≠ .noValue) (e : DErr) (h : S.verify v = .error e) : VM.new S v = .error .attribute := by
  have hno : ¬ v.isNo = true := by cases v <;> simp_all [DVal.isNo]
  simp [VM.new, hno, h]

/-- Disagreement: `NoValue` always passes the test `in`, but `set(NoValue)` raises the exception of the last rejected value (even of a mere test) and does not empty the model. -/
theorem C42_stale_wrong (M : VM) (x : DVal) (e : DErr) (hx : x ≠ .noValue) (he : M.spec.verify x = .error e) :
    ((M.test x).2.test .noValue).1 = true ∧ ((M.test x).2.set .noValue).1 = .error e ∧ ((M.test x).2.set .noValue).2.value = M.value := by
  have hno : ¬ x.isNo = true := by cases x <;> simp_all [DVal.isNo]
  simp [VM.test, VM.set, VM.probe, hno, he, DVal.isNo]

/-- Disagreement: the model "that will take any python object without any restrictions" changes what it stores: tuples become lists, a dict becomes the list of its keys. -/
theorem C42_any_model_wrong (k x y : Int) :
    (⟨castAny, Option.none, Option.none⟩ : Spec).verify (.tuple [.int x, .int y]) = .ok (.list [.int x, .int y]) ∧
    (⟨castAny, Option.none, Option.none⟩ : Spec).verify (.dict [(.int k, .int x)]) = .ok (.list [.int k]) := by
  simp [Spec.verify, Spec.check, Spec.checkL, Spec.checkK, Spec.leaf, castAny, Except.map]

/-- every single item in a value -/
inductive ItemOf : DVal → DVal → Prop
  | self {v} : (∀ l, v ≠ .list l) → ItemOf v v
  | list {l v w} : v ∈ l → ItemOf w v → ItemOf w (.list l)

theorem items_good {S : Spec} {w : DVal} (h : GoodItems S w) (hc : ∀ v r, S.cast v = .ok r → ∀ l, r ≠ .list l) {x : DVal} (hx : ItemOf x w) : GoodItem S x := by
  induction h with
  | item hg =>
    obtain ⟨⟨v, hv⟩, h2⟩ := hg
    cases hx with
    | self _ => exact ⟨⟨v, hv⟩, h2⟩
    | list hm _ => exact absurd rfl (hc v _ hv _)
  | list _ ih =>
    cases hx with
    | self h => exact absurd rfl (h _)
    | list hm hx => exact ih _ hm hx

theorem castInt_int {parse : List Char → Option Int} {v r : DVal} (h : castInt parse v = .ok r) : ∃ z, r = .int z := by
  unfold castInt at h
  split at h
  · simp only [Except.ok.injEq] at h; exact ⟨_, h.symm⟩
  · split at h
    · simp only [Except.ok.injEq] at h; exact ⟨_, h.symm⟩
    · simp at h
  · simp at h

theorem inLimits_iff (lo hi z : Int) (h : lo < hi) : inLimits lo hi (.int z) = .ok true ↔ lo ≤ z ∧ z ≤ hi := by
  obtain ⟨r, h1, h2⟩ := MSets.C37_interval (.int lo) (.int hi) (.int z) false false false (by simp) (by simp) (by simp) Option.none
  unfold inLimits
  simp only [h1, Except.ok.injEq, h2, Bool.false_eq_true, if_false]
  unfold MSets.Inside MSets.Between MSets.Num.pos
  have e1 : ((((lo : ℚ) : WithTop ℚ)) : MSets.Ext) < ((((hi : ℚ) : WithTop ℚ)) : MSets.Ext) := by exact_mod_cast h
  rw [if_pos e1]
  simp only [Bool.false_eq_true, if_false]
  constructor
  · rintro ⟨a, b⟩
    have a' : lo < z ∨ z = lo ∧ True := by exact_mod_cast a
    have b' : z < hi ∨ z = hi ∧ True := by exact_mod_cast b
    omega
  · rintro ⟨a, b⟩
    have a' : lo < z ∨ z = lo ∧ True := (Int.lt_or_eq_of_le a).imp_right fun h => ⟨h.symm, trivial⟩
    have b' : z < hi ∨ z = hi ∧ True := (Int.lt_or_eq_of_le b).imp_right fun h => ⟨h, trivial⟩
    exact ⟨by exact_mod_cast a', by exact_mod_cast b'⟩

/-- C42: a model with a limited integer type (int8, uint8, … uint64) stores, after any history, only integers within the limits of the type (alone or in nested lists). -/
theorem C42_int_models (parse : List Char → Option Int) (lo hi : Int) (hl : (lo, hi) ∈ limits) (shape : Option (List Dim)) (v : DVal) (M : VM)
    (hM : VM.new (intSpec parse lo hi shape) v = .ok M) (ops : List Op) (x : DVal) (hx : ItemOf x (M.run ops).value) :
    x = .noValue ∨ ∃ z, x = .int z ∧ lo ≤ z ∧ z ≤ hi := by
  rcases C42_history _ v M hM ops with h | ⟨h, _⟩
  · rw [h] at hx
    cases hx; exact .inl rfl
  · refine .inr ?_
    obtain ⟨⟨u, hu⟩, hc⟩ := items_good h (fun v r hr l => by obtain ⟨z, rfl⟩ := castInt_int hr; simp) hx
    obtain ⟨z, rfl⟩ := castInt_int hu
    refine ⟨z, rfl, (inLimits_iff lo hi z ?_).1 (hc _ rfl)⟩
    simp only [limits, List.mem_cons, Prod.mk.injEq, List.not_mem_nil, or_false] at hl
    omega

/-- C42: the limits of the classes int8, uint8, int16, … uint64 are exactly the ranges of the 8, 16, 32 and 64 bit types -/
theorem C42_ranges : limits = [8, 16, 32, 64].flatMap fun n : Nat => [(-(2 ^ (n - 1) : Int), (2 ^ (n - 1) : Int) - 1), (0, (2 ^ n : Int) - 1)] := by
  decide +kernel

/-- C42: and it accepts every integer within the limits, unchanged (no shape given) -/
theorem C42_int_accepts (parse : List Char → Option Int) (lo hi z : Int) (h1 : lo ≤ z) (h2 : z ≤ hi) (hlt : lo < hi) (M : VM) (hM : M.spec = intSpec parse lo hi Option.none) :
    (M.set (.int z)).1 = .ok M.value ∧ (M.set (.int z)).2.value = .int z := by
  have : M.spec.verify (.int z) = .ok (.int z) := by
    rw [hM]
    simp [Spec.verify, intSpec, Spec.check, Spec.leaf, castInt, (inLimits_iff lo hi z hlt).2 ⟨h1, h2⟩]
  simp [VM.set, VM.probe, DVal.isNo, this]

/-- C42: the ASCII model stores only ASCII strings. -/
theorem C42_ascii (str : DVal → List Char) (contains : Option (DVal → Except DErr Bool)) (shape : Option (List Dim)) (v : DVal) (M : VM)
    (hM : VM.new ⟨castAscii str, contains, shape⟩ v = .ok M) (ops : List Op) (x : DVal) (hx : ItemOf x (M.run ops).value) :
    x = .noValue ∨ ∃ s, x = .str s ∧ ∀ c ∈ s, c.toNat < 128 := by
  have hc : ∀ v r, castAscii str v = .ok r → ∃ s, r = .str s ∧ ∀ c ∈ s, c.toNat < 128 := by
    intro v r h
    unfold castAscii at h
    split at h
    · rename_i ha
      simp only [Except.ok.injEq] at h
      exact ⟨_, h.symm, by simpa using ha⟩
    · simp at h
  rcases C42_history _ v M hM ops with h | ⟨h, _⟩
  · rw [h] at hx
    cases hx; exact .inl rfl
  · obtain ⟨⟨u, hu⟩, _⟩ := items_good h (fun v r hr l => by obtain ⟨z, rfl, _⟩ := hc v r hr; simp) hx
    exact .inr (hc u x hu)

theorem castDict_key {d : List (Int × List Char)} {v : DVal} {k : Int} (h : castDict d v = some k) : k ∈ d.map (·.1) := by
  unfold castDict at h
  split at h
  · split at h <;> simp at h; subst h; assumption
  · rename_i b
    by_cases hb : (if b = true then (1 : Int) else 0) ∈ d.map (·.1)
    · rw [if_pos hb, Option.some.injEq] at h; rw [← h]; exact hb
    · rw [if_neg hb] at h; simp at h
  · cases hf : d.reverse.find? fun kv => kv.2 = ‹List Char› with
    | none => rw [hf] at h; simp at h
    | some kv =>
      rw [hf] at h
      simp at h
      have := List.mem_of_find?_eq_some hf
      exact List.mem_map.2 ⟨kv, by simpa using this, h⟩
  · simp at h

/-- C42: the enumeration model stores only keys of the enumeration. -/
theorem C42_enum (d : List (Int × List Char)) (v : DVal) (M : VM) (hM : VM.new ⟨castEnum d, Option.none, Option.none⟩ v = .ok M) (ops : List Op) (x : DVal) (hx : ItemOf x (M.run ops).value) :
    x = .noValue ∨ ∃ k ∈ d.map (·.1), x = .int k := by
  have hc : ∀ v r, castEnum d v = .ok r → r = .noValue ∨ ∃ k ∈ d.map (·.1), r = .int k := by
    intro v r h
    unfold castEnum at h
    split at h
    · simp only [Except.ok.injEq] at h; exact .inl h.symm
    · split at h
      · rename_i k hk; simp only [Except.ok.injEq] at h; exact .inr ⟨k, castDict_key hk, h.symm⟩
      · simp at h
  rcases C42_history _ v M hM ops with h | ⟨h, _⟩
  · rw [h] at hx
    cases hx; exact .inl rfl
  · obtain ⟨⟨u, hu⟩, _⟩ := items_good h (fun v r hr l => by rcases hc v r hr with rfl | ⟨k, _, rfl⟩ <;> simp) hx
    exact hc u x hu

theorem eq_of_key {d : List (Int × List Char)} (hk : (d.map (·.1)).Nodup) {a b : Int × List Char} (ha : a ∈ d) (hb : b ∈ d) (h : a.1 = b.1) : a = b := by
  induction d with
  | nil => simp at ha
  | cons x d ih =>
    simp only [List.map_cons, List.nodup_cons] at hk
    rcases List.mem_cons.1 ha with rfl | ha'
    · rcases List.mem_cons.1 hb with rfl | hb
      · rfl
      · exact absurd (show a.1 ∈ d.map (·.1) from List.mem_map.2 ⟨b, hb, h.symm⟩) hk.1
    · rcases List.mem_cons.1 hb with rfl | hb'
      · exact absurd (show b.1 ∈ d.map (·.1) from List.mem_map.2 ⟨a, ha', h⟩) hk.1
      · exact ih hk.2 ha' hb'

/-- C42: setting a label of the enumeration (labels and keys without repetition) makes `str(model)` deliver that label. -/
theorem C42_enum_label (d : List (Int × List Char)) (hk : (d.map (·.1)).Nodup) (k : Int) (s : List Char) (hd : (k, s) ∈ d) (hs : ∀ kv ∈ d, kv.2 = s → kv.1 = k)
    (M : VM) (hM : M.spec = ⟨castEnum d, Option.none, Option.none⟩) : (M.set (.str s)).2.value = .int k ∧ enumStr d (M.set (.str s)).2.value = some s := by
  have h1 : d.reverse.find? (fun kv => kv.2 = s) = some (k, s) := by
    cases hf : d.reverse.find? (fun kv => kv.2 = s) with
    | none =>
      rw [List.find?_eq_none] at hf
      have := hf (k, s) (by simpa using hd)
      simp at this
    | some kv =>
      have hm : kv ∈ d := by simpa using List.mem_of_find?_eq_some hf
      have h2 : kv.2 = s := by simpa using List.find?_some hf
      have h3 := hs kv hm h2
      obtain ⟨a, b⟩ := kv
      simp at h2 h3; subst h2 h3; rfl
  have h2 : M.spec.verify (.str s) = .ok (.int k) := by
    rw [hM]
    simp only [Spec.verify, Spec.check, Spec.leaf, castEnum, DVal.isNo, Bool.false_eq_true, if_false, castDict, h1, Option.map]
  have h3 : (M.set (.str s)).2.value = .int k := by simp [VM.set, VM.probe, DVal.isNo, h2]
  refine ⟨h3, ?_⟩
  rw [h3]
  simp only [enumStr]
  cases hf : d.find? (fun kv => kv.1 = k) with
  | none =>
    rw [List.find?_eq_none] at hf
    have := hf (k, s) hd
    simp at this
  | some kv =>
    have hm : kv ∈ d := List.mem_of_find?_eq_some hf
    have h2 : kv.1 = k := by simpa using List.find?_some hf
    have := eq_of_key hk hm hd h2
    rw [this]; rfl

/-- Disagreement: a pattern model with a pattern cannot be made (NameError), and an integer model with a set as `contains` neither (TypeError). -/
theorem C42_ctor_wrong (str : DVal → List Char) (shape : Option (List Dim)) (c : Option (DVal → Except DErr Bool)) (p : List Char) (parse : List Char → Option Int) (lo hi : Int) :
    patternCtor str shape c (some p) = .error .name ∧ intCtor parse lo hi shape true = .error .type := ⟨rfl, rfl⟩

/-- a concrete history: an int8 model; 200 and a string are refused, a nested list is stored -/
def m0 : VM := ⟨intSpec (fun _ => Option.none) (-128) 127 (some [.any]), .noValue, Option.none⟩
example : VM.new (intSpec (fun _ => Option.none) (-128) 127 (some [.any])) .noValue = .ok m0 := rfl
example : (m0.run [.set (.int 5), .set (.int 200), .test (.str ['x'])]).value = .int 5 := by
  have h5 := (inLimits_iff (-128) 127 5 (by omega)).2 (by omega)
  have h200 : inLimits (-128) 127 (.int 200) = .ok false := by
    obtain ⟨r, h1, h2⟩ := MSets.C37_interval (.int (-128)) (.int 127) (.int 200) false false false (by simp) (by simp) (by simp) Option.none
    have := mt (inLimits_iff (-128) 127 200 (by omega)).1 (by omega)
    unfold inLimits at this ⊢
    simp only [h1] at this ⊢
    cases r with
    | false => rfl
    | true => exact absurd rfl this
  simp [m0, VM.run, VM.step, VM.set, VM.probe, VM.test, DVal.isNo, Spec.verify, intSpec, Spec.check, Spec.leaf, castInt, h5, h200, DVal.depth, maxShape, DVal.elems, checkShape, shapeLoop]

end DModels
