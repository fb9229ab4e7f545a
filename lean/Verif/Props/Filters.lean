import Verif.Spec.Filters
import Verif.Props.MathSet
/-
C41: filters.
-/
namespace ITree

theorem suppress_not (c : Err → Bool) (r s : Except Err (Option Bool)) (h : s = r.map (Option.map not)) : suppress c true s = (suppress c false r).map not := by
  subst h
  rcases r with e | (_ | b)
  · simp only [suppress, Except.map]; cases c e <;> rfl
  · rfl
  · rfl

theorem loopRet_not (test : Val → Except Err Bool) (l : List Val) : loopRet test true l = (loopRet test false l).map (Option.map not) := by
  induction l with
  | nil => rfl
  | cons v vs ih =>
    simp only [loopRet]
    split
    · rfl
    · exact ih
    · rfl

theorem bind_loop_not (o : Except Err (List Val)) (test : Val → Except Err Bool) : o.bind (loopRet test true) = (o.bind (loopRet test false)).map (Option.map not) := by
  rcases o with e | l
  · rfl
  · exact loopRet_not test l

/-- C41: `invert=True` negates the answer of every filter on every item (and it raises exactly when the filter itself raises). -/
theorem C41_invert (E : FEnv) (f : Filt) (x : FItem) : f.call E true x = (f.call E false x).map not := by
  cases f with
  | flags m => rfl
  | tag t => simp [Filt.call, Except.map]
  | tagFn p => rfl
  | value v => rfl
  | dictValue v => exact suppress_not _ _ _ (bind_loop_not _ _)
  | listValue v => exact suppress_not _ _ _ (bind_loop_not _ _)
  | valueFn p => simp only [Filt.call, Except.map]; cases fnVal E p x.value <;> rfl
  | dictValueFn p => exact suppress_not _ _ _ (bind_loop_not _ _)
  | listItemFn p => exact suppress_not _ _ _ (bind_loop_not _ _)
  | valueIn s => simp only [Filt.call]; rcases numIn s x.value with e | (_ | _) <;> rfl
  | dictValueIn s => exact suppress_not _ _ _ (bind_loop_not _ _)
  | listItemIn s => exact suppress_not _ _ _ (bind_loop_not _ _)
  | dictKey k => exact suppress_not _ _ _ (by rcases keyIn E k x.value with e | (_ | _) <;> rfl)
  | listIdx i => exact suppress_not _ _ _ (by rcases orRaise .index (atIdx i x.value) with e | v <;> simp only [Except.map]; split <;> rfl)
  | dictKeyFn p => exact suppress_not _ _ _ (bind_loop_not _ _)
  | dictKeyIn s => exact suppress_not _ _ _ (bind_loop_not _ _)

/-- a loop with a test that never raises finds whether there is an element passing the test -/
theorem loopRet_ok (t : Val → Except Err Bool) (l : List Val) (ht : ∀ v ∈ l, ∃ b, t v = .ok b) :
    ((∃ v ∈ l, t v = .ok true) ∧ loopRet t false l = .ok (some true)) ∨ ((∀ v ∈ l, t v = .ok false) ∧ loopRet t false l = .ok Option.none) := by
  induction l with
  | nil => exact .inr ⟨by simp, rfl⟩
  | cons v vs ih =>
    obtain ⟨b, hb⟩ := ht v (by simp)
    cases b with
    | true => exact .inl ⟨⟨v, by simp, hb⟩, by simp [loopRet, hb]⟩
    | false =>
      rcases ih fun w hw => ht w (List.mem_cons_of_mem _ hw) with ⟨⟨w, hw, h1⟩, h2⟩ | ⟨h1, h2⟩
      · exact .inl ⟨⟨w, List.mem_cons_of_mem _ hw, h1⟩, by simp [loopRet, hb, h2]⟩
      · refine .inr ⟨?_, by simp [loopRet, hb, h2]⟩
        intro w hw
        rcases List.mem_cons.1 hw with rfl | hw
        · exact hb
        · exact h1 w hw

theorem suppress_loop (c : Err → Bool) (t : Val → Except Err Bool) (l : List Val) (ht : ∀ v ∈ l, ∃ b, t v = .ok b) :
    ∃ b, suppress c false (loopRet t false l) = .ok b ∧ (b = true ↔ ∃ v ∈ l, t v = .ok true) := by
  rcases loopRet_ok t l ht with ⟨h1, h2⟩ | ⟨h1, h2⟩
  · exact ⟨true, by simp [h2, suppress], by simpa using h1⟩
  · refine ⟨false, by simp [h2, suppress], by simp; exact fun v hv => by simp [h1 v hv]⟩

theorem numIn_ok {s : Val → Except Err Bool} (h : Answers s) (v : Val) : ∃ b, numIn s v = .ok b := by
  unfold numIn
  split
  · rename_i hn; exact h v hn
  · exact ⟨_, rfl⟩

theorem numIn_true {s : Val → Except Err Bool} (v : Val) : numIn s v = .ok true ↔ v.isNumber = true ∧ s v = .ok true := by
  unfold numIn
  split <;> simp_all

theorem fnVal_true {E : FEnv} {p : String} (v : Val) : fnVal E p v = true ↔ ∃ s, v = .str s ∧ E.fn s p = true := by
  cases v <;> simp [fnVal]

theorem flags_any : ∀ f m : Flags, (f &&& m ≠ 0#6) ↔ ∃ i : Fin 6, m.getLsb i = true ∧ f.getLsb i = true := by decide +kernel

theorem seqIdx_some (n : Nat) (i : Int) : (∃ k, seqIdx n i = some k ∧ k < n) ↔ -(n : Int) ≤ i ∧ i < n := by
  unfold seqIdx
  split
  · split
    · simp; omega
    · simp; omega
  · split
    · simp; omega
    · simp; omega

theorem seqIdx_lt (n : Nat) (i : Int) (k : Nat) (h : seqIdx n i = some k) : k < n := by
  unfold seqIdx at h
  split at h
  · split at h <;> simp at h; omega
  · split at h <;> simp at h; omega

/-- a dict filter: no exception on other values, on a dict the loop decides -/
theorem dict_loop (c : Err → Bool) (hc : c .attribute = true) (o : Option (List Val)) (t : Val → Except Err Bool) (ht : ∀ v, ∃ b, t v = .ok b) :
    ∃ b, suppress c false ((orRaise .attribute o).bind (loopRet t false)) = .ok b ∧ (b = true ↔ ∃ l, o = some l ∧ ∃ v ∈ l, t v = .ok true) := by
  cases o with
  | none => exact ⟨false, by simp [orRaise, Except.bind, suppress, hc], by simp⟩
  | some l =>
    obtain ⟨b, h1, h2⟩ := suppress_loop c t l fun v _ => ht v
    exact ⟨b, h1, by simpa using h2⟩

theorem valuesOf_some (v : Val) (l : List Val) : v.valuesOf = some l ↔ ∃ d, v = .dict d ∧ d.map (·.2) = l := by
  cases v <;> simp [Val.valuesOf]

theorem keysOf_some (v : Val) (l : List Val) : v.keysOf = some l ↔ ∃ d, v = .dict d ∧ d.map (·.1) = l := by
  cases v <;> simp [Val.keysOf]

theorem ex_values (v : Val) (q : Val → Prop) : (∃ l, v.valuesOf = some l ∧ ∃ y ∈ l, q y) ↔ ∃ d, v = .dict d ∧ ∃ kv ∈ d, q kv.2 := by
  cases v <;> simp [Val.valuesOf]
  constructor
  · rintro ⟨y, ⟨a, h⟩, hq⟩; exact ⟨a, y, h, hq⟩
  · rintro ⟨a, y, h, hq⟩; exact ⟨y, ⟨a, h⟩, hq⟩

theorem ex_keys (v : Val) (q : Val → Prop) : (∃ l, v.keysOf = some l ∧ ∃ y ∈ l, q y) ↔ ∃ d, v = .dict d ∧ ∃ kv ∈ d, q kv.1 := by
  cases v <;> simp [Val.keysOf]

/-- C41: where it is used as intended (`Suits`), a filter answers with a bool and the answer is True exactly for the items the filter describes. -/
theorem C41_exact_partial (E : FEnv) (f : Filt) (x : FItem) (hs : f.Suits x) : ∃ b, f.call E false x = .ok b ∧ (b = true ↔ f.Describes E x) := by
  cases f with
  | flags m => exact ⟨_, rfl, by simpa [Filt.Describes] using flags_any x.flags m⟩
  | tag t => exact ⟨_, rfl, by simp [Filt.Describes]⟩
  | tagFn p =>
    refine ⟨_, rfl, ?_⟩
    simp only [Filt.Describes, Bool.false_eq_true, if_false]
    cases x.tag <;> simp
  | value v => exact ⟨_, rfl, by simp [Filt.Describes]⟩
  | dictValue v =>
    obtain ⟨b, h1, h2⟩ := dict_loop isAny rfl x.value.valuesOf (fun y => .ok (Val.pyEq v y)) (fun _ => ⟨_, rfl⟩)
    exact ⟨b, h1, h2.trans ((ex_values _ _).trans (by simp [Filt.Describes]))⟩
  | listValue v =>
    obtain ⟨h1, h2⟩ := hs
    rcases hx : x.value with _ | _ | _ | _ | s | l | d | _ | _
    case list =>
      obtain ⟨b, h3, h4⟩ := suppress_loop isAny (fun y => .ok (Val.pyEq v y)) l (fun _ _ => ⟨_, rfl⟩)
      exact ⟨b, by simpa [Filt.call, hx, Val.iterOf, orRaise, Except.bind] using h3, by simpa [Filt.Describes, hx] using h4⟩
    case str => exact absurd hx (h1 _)
    case dict => exact absurd hx (h2 _)
    all_goals exact ⟨false, by simp [Filt.call, hx, Val.iterOf, orRaise, Except.bind, suppress, isAny], by simp [Filt.Describes, hx]⟩
  | valueFn p =>
    refine ⟨fnVal E p x.value, ?_, fnVal_true _⟩
    simp only [Filt.call, hit]; cases fnVal E p x.value <;> rfl
  | dictValueFn p =>
    obtain ⟨b, h1, h2⟩ := dict_loop isAttr rfl x.value.valuesOf (fun y => .ok (fnVal E p y)) (fun _ => ⟨_, rfl⟩)
    exact ⟨b, h1, h2.trans ((ex_values _ _).trans (by simp [Filt.Describes, fnVal_true]))⟩
  | listItemFn p =>
    obtain ⟨l, hl⟩ := hs
    obtain ⟨b, h3, h4⟩ := suppress_loop isAttr (fun y => .ok (fnVal E p y)) l (fun _ _ => ⟨_, rfl⟩)
    refine ⟨b, by simpa [Filt.call, hl, Val.iterOf, orRaise, Except.bind] using h3, h4.trans ?_⟩
    simp only [Except.ok.injEq, fnVal_true, Filt.Describes, hl]
    constructor
    · rintro ⟨v, hv, s, rfl, h⟩; exact ⟨l, rfl, s, hv, h⟩
    · rintro ⟨l', h, s, hv, hf⟩; cases h; exact ⟨_, hv, s, rfl, hf⟩
  | valueIn s =>
    obtain ⟨b, hb⟩ := numIn_ok hs x.value
    refine ⟨b, by simp only [Filt.call, hb, Except.map, hit]; cases b <;> rfl, ?_⟩
    rw [Filt.Describes, ← numIn_true, hb]; simp
  | dictValueIn s =>
    obtain ⟨b, h1, h2⟩ := dict_loop isAttr rfl x.value.valuesOf (numIn s) (numIn_ok hs)
    exact ⟨b, h1, h2.trans ((ex_values _ _).trans (by simp only [Filt.Describes, numIn_true]))⟩
  | listItemIn s =>
    obtain ⟨h0, h1, h2⟩ := hs
    rcases hx : x.value with _ | _ | _ | _ | t | l | d | _ | _
    case list =>
      obtain ⟨b, h3, h4⟩ := suppress_loop isAttrOrType (numIn s) l (fun v _ => numIn_ok h0 v)
      exact ⟨b, by simpa [Filt.call, hx, Val.iterOf, orRaise, Except.bind] using h3, by simpa [Filt.Describes, hx, numIn_true] using h4⟩
    case str => exact absurd hx (h1 _)
    case dict => exact absurd hx (h2 _)
    all_goals exact ⟨false, by simp [Filt.call, hx, Val.iterOf, orRaise, Except.bind, suppress, isAttrOrType], by simp [Filt.Describes, hx]⟩
  | dictKey k =>
    obtain ⟨h0, h1, h2, h3⟩ := hs
    rcases hx : x.value with _ | _ | _ | _ | t | l | d | ⟨n, v⟩ | _
    case dict =>
      refine ⟨d.any fun kv => Val.pyEq k kv.1, by simp [Filt.call, hx, keyIn, h0, Except.map, suppress], ?_⟩
      simp only [Filt.Describes, hx, List.any_eq_true]
      constructor
      · rintro ⟨kv, h, h'⟩; exact ⟨d, rfl, kv, h, h'⟩
      · rintro ⟨d', h, kv, h', h''⟩; cases h; exact ⟨kv, h', h''⟩
    case str => exact absurd hx (h2 _)
    case list => exact absurd hx (h1 _)
    case model => exact absurd hx (h3 _ _)
    all_goals exact ⟨false, by simp [Filt.call, hx, keyIn, Except.map, suppress, isAny], by simp [Filt.Describes, hx]⟩
  | listIdx i =>
    obtain ⟨h1, h2⟩ := hs
    rcases hx : x.value with _ | _ | _ | _ | t | l | d | ⟨n, v⟩ | _
    case list =>
      have hd : (Filt.listIdx i).Describes E x ↔ ∃ k, seqIdx l.length i = some k ∧ k < l.length := by
        rw [seqIdx_some]; simp [Filt.Describes, hx]
      cases hk : seqIdx l.length i with
      | none => exact ⟨false, by simp [Filt.call, hx, atIdx, hk, orRaise, Except.map, suppress, isAny], by rw [hd]; simp [hk]⟩
      | some k =>
        have hlt := seqIdx_lt _ _ _ hk
        refine ⟨true, ?_, by rw [hd]; simp [hk, hlt]⟩
        have := h2 l hx l[k] (List.getElem_mem hlt)
        simp [Filt.call, hx, atIdx, hk, orRaise, Except.map, suppress, hlt, this]
    case str => exact absurd hx (h1 _)
    all_goals exact ⟨false, by simp [Filt.call, hx, atIdx, orRaise, Except.map, suppress, isAny], by simp [Filt.Describes, hx]⟩
  | dictKeyFn p =>
    obtain ⟨b, h1, h2⟩ := dict_loop isAttr rfl x.value.keysOf (fun y => .ok (fnVal E p y)) (fun _ => ⟨_, rfl⟩)
    exact ⟨b, h1, h2.trans ((ex_keys _ _).trans (by simp [Filt.Describes, fnVal_true]))⟩
  | dictKeyIn s =>
    obtain ⟨b, h1, h2⟩ := dict_loop isAny rfl x.value.keysOf (numIn s) (numIn_ok hs)
    exact ⟨b, h1, h2.trans ((ex_keys _ _).trans (by simp only [Filt.Describes, numIn_true]))⟩

/-- C41: the helper that maps a filter over items gives the answers in order, one per item. -/
theorem C41_answers (E : FEnv) (f : Filt) (invert : Bool) (xs : List FItem) (l : List Bool) :
    answers E f invert xs = .ok l ↔ l.map Except.ok = xs.map (f.call E invert) := by
  induction xs generalizing l with
  | nil => simp [answers, eq_comm]
  | cons x xs ih =>
    simp only [answers, List.map_cons]
    cases hx : f.call E invert x with
    | error e => cases l <;> simp
    | ok b =>
      cases hr : answers E f invert xs with
      | error e =>
        cases l with
        | nil => simp
        | cons c l => simp only [List.map_cons, List.cons.injEq, reduceCtorEq, false_iff, not_and]; intro _ h; rw [← ih, hr] at h; simp at h
      | ok r =>
        cases l with
        | nil => simp
        | cons c l =>
          have := ih l
          simp only [hr, Except.ok.injEq] at this
          simp only [Except.ok.injEq, List.cons.injEq, List.map_cons, ← this, eq_comm (a := b)]

/-- membership of a number of the value domain in an interval object (`v in mSetInterval(…)`) -/
def inInterval (s : MSets.Interval) (v : Val) : Except Err Bool :=
  let r := match v with
    | .int z => s.contains (.num (.int z)) Option.none
    | .bool b => s.contains (.num (.int (if b then 1 else 0))) Option.none
    | _ => .error .type
  match r with | .ok b => .ok b | .error _ => .error .type

/-- C41/C37: the interval filter with the interval of two numbers: exactly the items whose value is an integer between the limits. -/
theorem C41_C37_value_in_interval (E : FEnv) (a b : MSets.Num) (aOpen bOpen compl : Bool) (ha : a ≠ .nan) (hb : b ≠ .nan) (z : Int) (tag : Tag) (fl : Flags) :
    ∃ r, (Filt.valueIn (inInterval (MSets.mkInterval ⟨.num a, aOpen⟩ ⟨.num b, bOpen⟩ false compl))).call E false ⟨tag, .int z, fl⟩ = .ok r ∧
      (r = true ↔ if compl then ¬ MSets.Inside a.pos aOpen b.pos bOpen (MSets.Num.int z).pos else MSets.Inside a.pos aOpen b.pos bOpen (MSets.Num.int z).pos) := by
  obtain ⟨r, h1, h2⟩ := MSets.C37_interval a b (.int z) aOpen bOpen compl ha hb (by simp) Option.none
  refine ⟨r, ?_, h2⟩
  simp only [Filt.call, numIn, Val.isNumber, if_true, inInterval, h1, Except.map, hit]
  cases r <;> rfl

/-- Disagreement: the index filter looks at the truth value of the element; `[0]` has an element at index 0 but the filter says no. -/
theorem C41_list_idx_wrong (E : FEnv) (t : Tag) (fl : Flags) :
    (Filt.listIdx 0).Describes E ⟨t, .list [.int 0], fl⟩ ∧ (Filt.listIdx 0).call E false ⟨t, .list [.int 0], fl⟩ = .ok false :=
  ⟨⟨_, rfl, by simp, by simp⟩, rfl⟩

/-- Disagreement: the pattern filter for list elements raises TypeError for every item whose value is not iterable (e.g. every item without value). -/
theorem C41_list_pattern_wrong (E : FEnv) (p : String) (inv : Bool) (x : FItem) (h : x.value.iterOf = Option.none) : (Filt.listItemFn p).call E inv x = .error .type := by
  simp [Filt.call, h, orRaise, Except.bind, suppress, isAttr]

/-- Disagreement: the key filter matches list elements and substrings as well. -/
theorem C41_dict_key_wrong (E : FEnv) (t : Tag) (fl : Flags) :
    ¬ (Filt.dictKey (.int 1)).Describes E ⟨t, .list [.int 1], fl⟩ ∧ (Filt.dictKey (.int 1)).call E false ⟨t, .list [.int 1], fl⟩ = .ok true :=
  ⟨by simp [Filt.Describes], by simp [Filt.call, keyIn, Val.iterOf, orRaise, Except.bind, Except.map, loopRet, suppress, Val.pyEq]⟩

/-- Disagreement: the list element filter matches the keys of a dict. -/
theorem C41_list_value_wrong (E : FEnv) (t : Tag) (fl : Flags) :
    ¬ (Filt.listValue (.int 1)).Describes E ⟨t, .dict [(.int 1, .int 2)], fl⟩ ∧ (Filt.listValue (.int 1)).call E false ⟨t, .dict [(.int 1, .int 2)], fl⟩ = .ok true :=
  ⟨by simp [Filt.Describes], by simp [Filt.call, keyIn, Val.iterOf, orRaise, Except.bind, Except.map, loopRet, suppress, Val.pyEq]⟩

/-- the hypotheses are met and both answers occur -/
example : (Filt.listIdx 1).Suits ⟨.str "a", .list [.int 3, .str "x"], 0#6⟩ := ⟨by simp, by simp [Val.truth]⟩
example : (Filt.dictKey (.str "k")).Suits ⟨.str "a", .dict [(.str "k", .int 1)], 0#6⟩ := by simp [Filt.Suits, Val.hashable]
example (E : FEnv) : (Filt.dictKey (.str "k")).call E false ⟨.str "a", .dict [(.str "k", .int 1)], 0#6⟩ = .ok true ∧
    (Filt.dictKey (.str "k")).call E true ⟨.str "a", .dict [(.str "q", .int 1)], 0#6⟩ = .ok true := by
  constructor <;> simp [Filt.call, keyIn, Except.map, suppress, Val.pyEq, Val.hashable]
example : Answers (inInterval (MSets.mkInterval ⟨.num (.int 1), false⟩ ⟨.num (.int 5), true⟩ false false)) := by
  intro v hv
  cases v <;> simp only [Val.isNumber, Bool.false_eq_true] at hv
  all_goals
    simp only [inInterval]
    obtain ⟨r, h, _⟩ := MSets.C37_interval (.int 1) (.int 5) (.int _) false true false (by simp) (by simp) (by simp) Option.none
    exact ⟨r, by rw [h]⟩

end ITree
