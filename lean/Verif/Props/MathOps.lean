import Verif.Model.MathOps
import Verif.Props.MathVars
import Verif.Props.MathStr
/-
C67: `iter_in` and `filter` agree with membership; C39: the operators `+` and `-`; C51: equality and construction arguments of rosters and combinations; C52: string form of rosters.
-/
namespace MSets

/-! ### C67 -/

theorem iterIn_contains (s : MSet) (l : List El) (hl : NoPairs l) (d : Option Dict) : s.iterIn l d = l.map fun v => s.contains v d := by
  cases s with
  | interval i =>
    refine List.map_congr_left fun v hv => ?_
    have := hl v hv
    cases v <;> first | exact absurd rfl (this _ _) | rfl
  | roster items c =>
    refine List.map_congr_left fun v hv => ?_
    have := hl v hv
    cases v <;> first | exact absurd rfl (this _ _) | rfl
  | combine items u c => rfl
  | other f n => rfl

/-- C67: `iter_in` gives for every element, in order, exactly what membership of that element gives. -/
theorem C67_iter_in_partial (s : MSet) (l : List El) (hl : NoPairs l) (d : Option Dict) :
    (s.iterIn l d).length = l.length ∧ ∀ (i : Nat) (v : El), l[i]? = some v → (s.iterIn l d)[i]? = some (s.contains v d) := by
  rw [iterIn_contains s l hl d]
  refine ⟨by simp, ?_⟩
  intro i v h
  simp [h]

/-- Disagreement: in `iter_in` of an interval with a variable limit the dict of an element `(value, dict)` is ignored – the question that membership answers raises TypeError. -/
theorem C67_iter_in_wrong : (MSet.interval (mkInterval ⟨.var "a", false⟩ ⟨.num (.int 5), false⟩ false false)).contains (.pair (.num (.int 3)) [("a", .int 1)]) none = .ok true ∧
    (MSet.interval (mkInterval ⟨.var "a", false⟩ ⟨.num (.int 5), false⟩ false false)).iterIn [.pair (.num (.int 3)) [("a", .int 1)]] none = [.error .type] := by decide +kernel

theorem keepLoop_ok (p : El → Except MErr Bool) : ∀ (l : List El), (∀ v ∈ l, ∃ b, p v = .ok b) → keepLoop l (l.map p) = (l.filter fun v => decide (p v = .ok true), none) := by
  intro l
  induction l with
  | nil => intro _; rfl
  | cons v vs ih =>
    intro h
    obtain ⟨b, hb⟩ := h v (by simp)
    have := ih fun w hw => h w (by simp [hw])
    simp only [List.map_cons, hb, keepLoop, this, List.filter_cons]
    cases b <;> simp

theorem keepLoop_err (p : El → Except MErr Bool) (e : MErr) (v : El) (l2 : List El) (hv : p v = .error e) :
    ∀ (l1 : List El), (∀ w ∈ l1, ∃ b, p w = .ok b) → keepLoop (l1 ++ v :: l2) ((l1 ++ v :: l2).map p) = (l1.filter fun v => decide (p v = .ok true), some e) := by
  intro l1
  induction l1 with
  | nil => intro _; simp [keepLoop, hv]
  | cons w ws ih =>
    intro h
    obtain ⟨b, hb⟩ := h w (by simp)
    have := ih fun w hw => h w (by simp [hw])
    simp only [List.cons_append, List.map_cons, hb, keepLoop, this, List.filter_cons]
    cases b <;> simp

/-- C67: if no membership question raises, `filter` delivers exactly the members, in order; if one raises, that exception is raised, and no element that is no member was delivered before. -/
theorem C67_filter_partial (s : MSet) (l : List El) (hl : NoPairs l) (d : Option Dict) :
    ((∀ v ∈ l, ∃ b, s.contains v d = .ok b) → s.filter l d = (l.filter fun v => decide (s.contains v d = .ok true), none)) ∧
    (∀ l1 v l2 e, l = l1 ++ v :: l2 → (∀ w ∈ l1, ∃ b, s.contains w d = .ok b) → s.contains v d = .error e →
      (s.filter l d).2 = some e ∧ ∀ w ∈ (s.filter l d).1, w ∈ l1 ∧ s.contains w d = .ok true) := by
  constructor
  · intro h
    have hk := keepLoop_ok (fun v => s.contains v d) l h
    rw [← iterIn_contains s l hl d] at hk
    unfold MSet.filter
    simp only [hk]
    cases s <;> rfl
  · rintro l1 v l2 e rfl h he
    have hk := keepLoop_err (fun v => s.contains v d) e v l2 he l1 h
    rw [← iterIn_contains s _ hl d] at hk
    unfold MSet.filter
    simp only [hk]
    cases s <;> refine ⟨rfl, ?_⟩ <;> intro w hw <;> simp_all

example : NoPairs [.num (.int 1), .num (.int 9)] := by intro v hv e d; simp at hv; rcases hv with rfl | rfl <;> simp
example : (MSet.interval (mkInterval ⟨.num (.int 1), false⟩ ⟨.num (.int 5), false⟩ false false)).iterIn [.num (.int 1), .num (.int 9)] none = [.ok true, .ok false] := by decide +kernel

/-! ### C39: operators -/

/-- C39: `a + b` is the union and `a - b` the intersection: what is asked of the result is answered from the answers of both. -/
theorem C39_operators (a b : MSet) (v : El) (d : Option Dict) (hv : ∀ e d', v ≠ .pair e d') (p q : Bool) (ha : a.contains v d = .ok p) (hb : b.contains v d = .ok q) :
    ∃ s t, a.add b = .ok s ∧ a.sub b = .ok t ∧ s.contains v d = .ok (p || q) ∧ t.contains v d = .ok (p && q) := by
  refine ⟨_, _, rfl, rfl, ?_, ?_⟩
  · have := C39_union [a, b] false v d hv [p, q] (by simp [answers, ha, hb])
    simpa [CArg.member] using this
  · have := C39_intersection [a, b] false v d hv [p, q] (by simp [answers, ha, hb])
    simpa [CArg.member] using this

/-! ### C51: rosters and combinations -/

/-- no two items of the set are equal (so it is with every roster the constructor makes), none is NaN -/
def Distinct (items : List IVal) : Prop := items.Pairwise fun a b => b.eq a = false

theorem rosterItems_distinct (l : List IVal) (h : Distinct l) : rosterItems (l.map fun v => ⟨v, false⟩) = l := by
  induction l with
  | nil => rfl
  | cons v vs ih =>
    rw [Distinct, List.pairwise_cons] at h
    simp only [List.map_cons, rosterItems, ih h.2, Bool.not_false, Bool.true_and]
    have : (vs.any fun j => j.eq v) = false := by
      rw [List.any_eq_false]; intro j hj; simp [h.1 j hj]
    simp [this]

theorem rosterItems_isDistinct (l : List Item) : Distinct (rosterItems l) := by
  induction l with
  | nil => exact List.Pairwise.nil
  | cons i is ih =>
    simp only [rosterItems]
    split
    · rename_i h
      refine List.pairwise_cons.2 ⟨?_, ih⟩
      intro j hj
      simp only [Bool.and_eq_true, Bool.not_eq_true', List.any_eq_false] at h
      simpa using h.2 j hj
    · exact ih

/-- C51: rebuilding any roster the constructor can make from `get_init_args()`, in the short or the full form, gives the same roster. -/
theorem C51_roster_args (l : List Item) (compl full : Bool) : ofRosterArgs (rosterArgs (rosterItems l) compl full) false = mkRoster l compl := by
  have h := rosterItems_distinct _ (rosterItems_isDistinct l)
  cases compl <;> cases full <;> simp [ofRosterArgs, rosterArgs, mkRoster, h]

/-- C51: rebuilding a combination from `get_init_args()` gives the same combination – with at least two members. -/
theorem C51_combine_args_partial (a b : MSet) (r : List MSet) (union compl full : Bool) : mkCombine (combineArgs (a :: b :: r) union compl full) true false = .ok (.combine (a :: b :: r) union compl) := by
  have hm : ∀ l : List MSet, (l.map CArg.set).map CArg.member = l := by intro l; simp [CArg.member, Function.comp_def]
  have h2 : ∀ l : List MSet, l ≠ [] → ∃ s t, (l.map CArg.set).reverse = .set s :: t := by
    intro l hl
    obtain ⟨x, y, h⟩ := List.exists_cons_of_ne_nil (l := (l.map CArg.set).reverse) (by simpa using hl)
    have : x ∈ l.map CArg.set := by rw [← List.mem_reverse, h]; simp
    obtain ⟨s, _, rfl⟩ := List.mem_map.1 this
    exact ⟨s, y, h⟩
  obtain ⟨s, t, e⟩ := h2 (a :: b :: r) (by simp)
  have e' : (CArg.set s :: t).reverse = (a :: b :: r).map CArg.set := by rw [← e]; simp
  have key : ((CArg.set s :: t).reverse.map CArg.member) = a :: b :: r := by rw [e', hm]
  simp only [List.reverse_cons] at key
  have hc : ∀ x, combineArgs (a :: b :: r) union compl full = x → x = (a :: b :: r).map CArg.set ++ (if compl || full then [.flag union, .flag compl] else if !union then [.flag union] else []) := by
    intro x hx; rw [← hx]; rfl
  rw [hc _ rfl]
  cases compl <;> cases full <;> cases union <;> simp only [Bool.or_true, Bool.or_false, if_true, Bool.false_eq_true, if_false, Bool.not_false, Bool.not_true, mkCombine, List.reverse_append, List.reverse_cons, List.reverse_nil,
    List.nil_append, List.singleton_append, List.append_nil, List.cons_append, e, key, Bool.bne_true, Bool.bne_false, Bool.not_false]

/-- Disagreement: a combination with a single member is rebuilt with `None` as second member: of every value outside the member the rebuilt union raises TypeError instead of answering,
as does the rebuilt intersection of every value inside. -/
theorem C51_combine_args_wrong (a : MSet) (union full : Bool) (v : El) (d : Option Dict) (hv : ∀ e d', v ≠ .pair e d') (h : a.contains v d = .ok (!union)) :
    (MSet.combine [a] union false).contains v d = .ok (!union) ∧
    ∃ s, mkCombine (combineArgs [a] union false full) true false = .ok s ∧ s.contains v d = .error .type := by
  have hu : unpair v d = (v, d) := by cases v <;> first | rfl | exact absurd rfl (hv _ _)
  constructor
  · cases union
    · have := C39_intersection [a] false v d hv [true] (by simp [answers, h])
      simpa using this
    · have := C39_union [a] false v d hv [false] (by simp [answers, h])
      simpa using this
  · refine ⟨.combine [a, .other (fun _ => .error .type) 0] union false, ?_, ?_⟩
    · cases union <;> cases full <;> rfl
    · simp only [MSet.contains, hu, MSet.loop, h, loopStep]
      cases union <;> simp [MSet.isMSet, Except.map]

theorem itemSetEq_hit {a b : List IVal} (h : itemSetEq a b = true) (ha : ∀ v ∈ a, v ≠ .num .nan) (hb : ∀ v ∈ b, v ≠ .num .nan) (x : IVal) (hx : x ≠ .num .nan) :
    (a.any fun i => i.eq x) = true → (b.any fun i => i.eq x) = true := by
  simp only [itemSetEq, Bool.and_eq_true, List.all_eq_true, List.any_eq_true] at h
  simp only [List.any_eq_true]
  rintro ⟨i, hi, he⟩
  obtain ⟨j, hj, hij⟩ := h.2 i hi
  refine ⟨j, hj, ?_⟩
  have h1 := ha i hi
  have h2 := hb j hj
  cases i with
  | num n => cases j with
    | num m => cases x with
      | num k =>
        simp only [IVal.eq] at he hij ⊢
        have n1 : n ≠ .nan := by rintro rfl; exact h1 rfl
        have n2 : m ≠ .nan := by rintro rfl; exact h2 rfl
        have n3 : k ≠ .nan := by rintro rfl; exact hx rfl
        rw [eq_iff n1 n3] at he; rw [eq_iff n1 n2] at hij; rw [eq_iff n2 n3]
        exact hij.symm.trans he
      | var s => simp [IVal.eq] at he
    | var s => simp [IVal.eq] at hij
  | var s => cases j with
    | num m => simp [IVal.eq] at hij
    | var t => cases x with
      | num k => simp [IVal.eq] at he
      | var u => simp only [IVal.eq, beq_iff_eq] at he hij ⊢; rw [← hij, he]

theorem IVal.eq_symm (a b : IVal) (h : a.eq b = true) : b.eq a = true := by
  cases a with
  | var s => cases b with
    | var t => simp only [IVal.eq, beq_iff_eq] at h ⊢; exact h.symm
    | num n => simp [IVal.eq] at h
  | num n => cases b with
    | var t => simp [IVal.eq] at h
    | num m =>
      simp only [IVal.eq] at h ⊢
      have h1 : n ≠ .nan := by rintro rfl; simp [Num.eq] at h
      have h2 : m ≠ .nan := by rintro rfl; cases n <;> simp [Num.eq] at h
      rw [eq_iff h1 h2] at h; rw [eq_iff h2 h1]; exact h.symm

/-- equal item sets found in both directions: the pigeonhole argument for sets of distinct elements -/
theorem itemSetEq_symm {a b : List IVal} (da : Distinct a) (h : itemSetEq a b = true) (db : Distinct b) (ha : ∀ v ∈ a, v ≠ .num .nan) (hb : ∀ v ∈ b, v ≠ .num .nan) : itemSetEq b a = true := by
  have h' := h
  simp only [itemSetEq, Bool.and_eq_true, List.all_eq_true, List.any_eq_true, beq_iff_eq] at h ⊢
  refine ⟨h.1.symm, ?_⟩
  obtain ⟨hlen, hf⟩ := h
  clear h'
  induction a generalizing b with
  | nil =>
    have : b = [] := by simpa using hlen.symm
    subst this; simp
  | cons x xs ih =>
    rw [Distinct, List.pairwise_cons] at da
    obtain ⟨y, hy, hxy⟩ := hf x (by simp)
    -- take y out of b
    obtain ⟨b1, b2, rfl⟩ := List.append_of_mem hy
    have hlen' : xs.length = (b1 ++ b2).length := by simp at hlen ⊢; omega
    have db' : Distinct (b1 ++ b2) := by
      unfold Distinct at db ⊢
      exact db.sublist (List.Sublist.append_left (List.sublist_cons_self y b2) b1)
    have trans : ∀ {u v w : IVal}, v ≠ .num .nan → u ≠ .num .nan → w ≠ .num .nan → u.eq v = true → v.eq w = true → u.eq w = true := by
      intro u v w hv hu hw h1 h2
      have := itemSetEq_hit (a := [v]) (b := [u]) (by simp [itemSetEq, IVal.eq_symm _ _ h1]) (by simpa using hv) (by simpa using hu) w hw (by simpa using h2)
      simpa using this
    have hf' : ∀ i ∈ xs, ∃ j ∈ b1 ++ b2, i.eq j = true := by
      intro i hi
      obtain ⟨j, hj, hij⟩ := hf i (by simp [hi])
      simp only [List.mem_append, List.mem_cons] at hj
      rcases hj with hj | rfl | hj
      · exact ⟨j, by simp [hj], hij⟩
      · exfalso
        have e1 : i.eq x = true := trans (hb _ hy) (ha i (by simp [hi])) (ha x (by simp)) hij (IVal.eq_symm _ _ hxy)
        rw [da.1 i hi] at e1; simp at e1
      · exact ⟨j, by simp [hj], hij⟩
    have := ih da.2 db' (fun v hv => ha v (by simp [hv])) (fun v hv => hb v (by simp only [List.mem_append, List.mem_cons] at hv ⊢; tauto)) hlen' hf'
    intro j hj
    simp only [List.mem_append, List.mem_cons] at hj
    rcases hj with hj | rfl | hj
    · obtain ⟨i, hi, e⟩ := this j (by simp [hj]); exact ⟨i, by simp [hi], e⟩
    · exact ⟨x, by simp, IVal.eq_symm _ _ hxy⟩
    · obtain ⟨i, hi, e⟩ := this j (by simp [hj]); exact ⟨i, by simp [hi], e⟩

/-- C51: two rosters that compare equal have the same numbers and names as members. -/
theorem C51_roster_equal (oeq : MSet → MSet → Bool) (l m : List Item) (c e : Bool) (hl : ∀ i ∈ l, i.val ≠ .num .nan) (hm : ∀ i ∈ m, i.val ≠ .num .nan)
    (h : (mkRoster l c).eq oeq (mkRoster m e) = true) (v : El) (hv : (∃ x, v = .num x ∧ x ≠ .nan) ∨ ∃ s, v = .str s) : (mkRoster l c).contains v none = (mkRoster m e).contains v none := by
  simp only [mkRoster, MSet.eq, Bool.and_eq_true, beq_iff_eq] at h
  obtain ⟨h, rfl⟩ := h
  have ha : ∀ v ∈ rosterItems l, v ≠ .num .nan := by intro v hv; obtain ⟨i, hi, rfl⟩ := rosterItems_sub l v hv; exact hl i hi
  have hb : ∀ v ∈ rosterItems m, v ≠ .num .nan := by intro v hv; obtain ⟨i, hi, rfl⟩ := rosterItems_sub m v hv; exact hm i hi
  have h' := itemSetEq_symm (rosterItems_isDistinct l) h (rosterItems_isDistinct m) ha hb
  have key : ∀ x : IVal, x ≠ .num .nan → ((rosterItems l).any fun i => i.eq x) = ((rosterItems m).any fun i => i.eq x) := by
    intro x hx
    rw [Bool.eq_iff_iff]
    exact ⟨itemSetEq_hit h ha hb x hx, itemSetEq_hit h' hb ha x hx⟩
  rcases hv with ⟨x, rfl, hx⟩ | ⟨s, rfl⟩
  · simp only [mkRoster, MSet.contains, rosterContains, rosterBody, rosterTest, rosterHit, replOf, List.any_nil, Bool.or_false, key (.num x) (by simpa using hx)]
  · simp only [mkRoster, MSet.contains, rosterContains, rosterBody, rosterTest, rosterHit, replOf, key (.var s) (by simp)]

theorem eqZip_forall {oeq : MSet → MSet → Bool} : ∀ {i j : List MSet}, i.length = j.length → MSet.eqZip oeq i j = true → List.Forall₂ (fun a b => a.eq oeq b = true) i j := by
  intro i
  induction i with
  | nil => intro j hl _; cases j with
    | nil => exact .nil
    | cons b j => simp at hl
  | cons a i ih =>
    intro j hl h
    cases j with
    | nil => simp at hl
    | cons b j =>
      simp only [MSet.eqZip, Bool.and_eq_true] at h
      exact .cons h.1 (ih (by simpa using hl) h.2)

theorem loop_congr {v : El} {d : Option Dict} (stop : Bool) : ∀ {i j : List MSet}, List.Forall₂ (fun a b => a.isMSet = b.isMSet ∧ a.contains v d = b.contains v d) i j → ∀ sv,
    MSet.loop stop i v d sv = MSet.loop stop j v d sv := by
  intro i j h
  induction h with
  | nil => intro sv; rfl
  | cons h _ ih => intro sv; simp only [MSet.loop, h.1, h.2, ih]

/-- C51: two combinations with the same number of members that compare equal have the same flags and members that compare equal one by one; and the same elements, if that holds for the members that compare
equal (`C51_equal_partial`, `C51_roster_equal`).  (With different numbers of members: `C51_combine_equal_wrong`.) -/
theorem C51_combine_equal_partial (oeq : MSet → MSet → Bool) (i j : List MSet) (u c w e : Bool) (hl : i.length = j.length) (h : (MSet.combine i u c).eq oeq (.combine j w e) = true) :
    u = w ∧ c = e ∧ List.Forall₂ (fun a b => a.eq oeq b = true) i j ∧
    ∀ (v : El) (d : Option Dict), (∀ a ∈ i, ∀ b ∈ j, a.eq oeq b = true → a.isMSet = b.isMSet ∧ a.contains (unpair v d).1 (unpair v d).2 = b.contains (unpair v d).1 (unpair v d).2) →
      (MSet.combine i u c).contains v d = (MSet.combine j w e).contains v d := by
  simp only [MSet.eq, Bool.and_eq_true, beq_iff_eq] at h
  obtain ⟨⟨h, rfl⟩, rfl⟩ := h
  have F := eqZip_forall hl h
  refine ⟨rfl, rfl, F, fun v d hm => ?_⟩
  have G : List.Forall₂ (fun a b => a.isMSet = b.isMSet ∧ a.contains (unpair v d).1 (unpair v d).2 = b.contains (unpair v d).1 (unpair v d).2) i j := by
    clear h hl
    induction F with
    | nil => exact .nil
    | cons hab _ ih =>
      exact .cons (hm _ (by simp) _ (by simp) hab) (ih fun a ha b hb => hm a (by simp [ha]) b (by simp [hb]))
  simp only [MSet.contains, loop_congr u G]

/-- two combinations that compare equal: a roster in another order and with a doubled element -/
example (oeq : MSet → MSet → Bool) : (MSet.combine [mkRoster [⟨.num (.int 1), false⟩, ⟨.num (.int 2), false⟩] false, .interval (mkInterval ⟨.num (.int 5), false⟩ ⟨.num (.int 9), false⟩ false false)] true false).eq oeq
    (.combine [mkRoster [⟨.num (.int 2), false⟩, ⟨.num (.int 1), false⟩, ⟨.num (.int 2), false⟩] false, .interval (mkInterval ⟨.num (.int 5), false⟩ ⟨.num (.int 9), false⟩ false false)] true false) = true := by
  simp only [MSet.eq, MSet.eqZip, mkRoster]; decide +kernel

/-- Disagreement: only the common part of the member lists is compared: the union of `[1,2]` equals the union of `[1,2]` and `[5,9]`, and every combination with the same flags equals one without
members left, whatever they contain. -/
theorem C51_combine_equal_wrong (oeq : MSet → MSet → Bool) :
    ∃ a b : MSet, (MSet.combine [a] true false).eq oeq (.combine [a, b] true false) = true ∧
      (MSet.combine [a] true false).contains (.num (.int 7)) none = .ok false ∧ (MSet.combine [a, b] true false).contains (.num (.int 7)) none = .ok true := by
  refine ⟨.interval (mkInterval ⟨.num (.int 1), false⟩ ⟨.num (.int 2), false⟩ false false), .interval (mkInterval ⟨.num (.int 5), false⟩ ⟨.num (.int 9), false⟩ false false), ?_, ?_, ?_⟩
  · simp only [MSet.eq, MSet.eqZip]; decide +kernel
  · decide +kernel
  · decide +kernel

/-! ### C52: rosters -/

theorem splitComma_clean (w : List Char) (h : ∀ c ∈ w, c ≠ ',') : splitComma w = [w] := by
  induction w with
  | nil => rfl
  | cons c cs ih => simp [splitComma, h c (by simp), ih fun x hx => h x (by simp [hx])]

theorem splitComma_sep (w r : List Char) (h : ∀ c ∈ w, c ≠ ',') : splitComma (w ++ ',' :: r) = w :: splitComma r := by
  induction w with
  | nil => simp [splitComma]
  | cons c cs ih => simp [splitComma, h c (by simp), ih fun x hx => h x (by simp [hx])]

theorem splitComma_commaSep : ∀ (l : List (List Char)), l ≠ [] → (∀ w ∈ l, ∀ c ∈ w, c ≠ ',') → splitComma (commaSep l) = l := by
  intro l
  induction l with
  | nil => intro h; exact absurd rfl h
  | cons w ws ih =>
    intro _ h
    cases ws with
    | nil => exact splitComma_clean w (h w (by simp))
    | cons v vs =>
      show splitComma (w ++ ',' :: commaSep (v :: vs)) = _
      rw [splitComma_sep w _ (h w (by simp)), ih (by simp) fun x hx => h x (by simp [hx])]

theorem limStr_mapM {items : List IVal} (h : ∀ v ∈ items, printable v) : ∃ l, items.mapM limStr = some l ∧ l.length = items.length ∧ (∀ w ∈ l, w ≠ [] ∧ w.all clean = true) ∧
    parseItems l = .ok (items.map fun v => ⟨v, false⟩) := by
  induction items with
  | nil => exact ⟨[], rfl, rfl, by simp, rfl⟩
  | cons v vs ih =>
    obtain ⟨s, hs, hne, hc⟩ := limStr_clean (h v (by simp))
    obtain ⟨l, hl, hlen, hw, hp⟩ := ih fun x hx => h x (by simp [hx])
    refine ⟨s :: l, by rw [List.mapM_cons, hs]; simp [hl], by simp [hlen], ?_, ?_⟩
    · intro w hw'
      rcases List.mem_cons.1 hw' with rfl | hw'
      · exact ⟨hne, hc⟩
      · exact hw w hw'
    · simp only [parseItems, if_neg hne, parseItem_limStr (h v (by simp)) hs, hp, List.map_cons]

theorem commaSep_chars {l : List (List Char)} {P : Char → Prop} (hP : P ',') (h : ∀ w ∈ l, ∀ c ∈ w, P c) : ∀ c ∈ commaSep l, P c := by
  induction l with
  | nil => simp [commaSep]
  | cons w ws ih =>
    cases ws with
    | nil => exact h w (by simp)
    | cons v vs =>
      intro c hc
      have hc' : c ∈ w ++ ',' :: commaSep (v :: vs) := hc
      simp only [List.mem_append, List.mem_cons] at hc'
      rcases hc' with h1 | rfl | h1
      · exact h w (by simp) c h1
      · exact hP
      · exact ih (fun x hx => h x (by simp [hx])) c h1

/-- C52: the string form of every roster of integers (≠ 0), infinities and variables, complement or not, is read back as exactly that roster. -/
theorem C52_roster_round_trip_partial (l : List Item) (compl : Bool) (h : ∀ i ∈ l, printable i.val) :
    ∃ s, rosterRepr (rosterItems l) compl = some s ∧ rosterOfString s = .ok (mkRoster l compl) := by
  have hp : ∀ v ∈ rosterItems l, printable v := by intro v hv; obtain ⟨i, hi, rfl⟩ := rosterItems_sub l v hv; exact h i hi
  have hd := rosterItems_distinct _ (rosterItems_isDistinct l)
  unfold mkRoster
  generalize rosterItems l = items at *
  obtain ⟨ls, e1, _, e3, e4⟩ := limStr_mapM hp
  refine ⟨_, by simp only [rosterRepr, e1]; rfl, ?_⟩
  have hch : ∀ w ∈ ls, ∀ c ∈ w, clean c = true := fun w hw c hc => List.all_eq_true.1 (e3 w hw).2 c hc
  have hsp : ∀ c ∈ commaSep ls, c ≠ ' ' := commaSep_chars (P := fun c => c ≠ ' ') (by decide) fun w hw c hc => (clean_ne (hch w hw c hc)).2.2.1
  have hf : (commaSep ls).filter (· != ' ') = commaSep ls := by rw [List.filter_eq_self]; intro c hc; simpa using hsp c hc
  have hparse : parseItems (splitComma (commaSep ls)) = .ok (items.map fun v => ⟨v, false⟩) := by
    cases ls with
    | nil =>
      simp only [commaSep, splitComma, parseItems, if_true]
      simpa [parseItems] using e4
    | cons w ws =>
      rw [splitComma_commaSep _ (by simp) fun w hw c hc => (clean_ne (hch w hw c hc)).1]
      exact e4
  have body : parseRoster ((if compl then ['!', '{'] else ['{']) ++ commaSep ls ++ ['}']) = .ok (items.map fun v => ⟨v, false⟩, compl) := by
    unfold parseRoster
    cases compl
    · have e : (((if false = true then ['!', '{'] else ['{']) ++ commaSep ls ++ ['}']).filter (· != ' ')) = '{' :: (commaSep ls ++ ['}']) := by
        simp [List.filter_append, hf]
      have g : ('{' :: (commaSep ls ++ ['}'])).getLast? = some '}' := by rw [← List.cons_append, List.getLast?_append]; rfl
      have dl : (commaSep ls ++ ['}']).dropLast = commaSep ls := by simp
      simp only [e, g]
      simp [dl, hparse, Except.map, g]
    · have e : (((if true = true then ['!', '{'] else ['{']) ++ commaSep ls ++ ['}']).filter (· != ' ')) = '!' :: '{' :: (commaSep ls ++ ['}']) := by
        simp [List.filter_append, hf]
      have g : ('{' :: (commaSep ls ++ ['}'])).getLast? = some '}' := by rw [← List.cons_append, List.getLast?_append]; rfl
      have dl : (commaSep ls ++ ['}']).dropLast = commaSep ls := by simp
      simp only [e, if_true, List.drop_succ_cons, List.drop_zero, g]
      simp [dl, hparse, Except.map, g, hf]
  simp only [rosterOfString, body, mkRoster, hd]

/-- C52: a roster definition may carry a complement sign in front and one behind; the two cancel: `!{..}` and `{..}'` are complements, `!{..}'` is not. -/
theorem C52_roster_signs_partial (l : List Item) (front back : Bool) (h : ∀ i ∈ l, printable i.val) :
    ∃ s, rosterRepr (rosterItems l) false = some s ∧ rosterOfString ((if front then ['!'] else []) ++ s ++ if back then ['\''] else []) = .ok (mkRoster l (front != back)) := by
  have hp : ∀ v ∈ rosterItems l, printable v := by intro v hv; obtain ⟨i, hi, rfl⟩ := rosterItems_sub l v hv; exact h i hi
  have hd := rosterItems_distinct _ (rosterItems_isDistinct l)
  unfold mkRoster
  generalize rosterItems l = items at *
  obtain ⟨ls, e1, _, e3, e4⟩ := limStr_mapM hp
  refine ⟨_, by simp only [rosterRepr, e1]; rfl, ?_⟩
  have hch : ∀ w ∈ ls, ∀ c ∈ w, clean c = true := fun w hw c hc => List.all_eq_true.1 (e3 w hw).2 c hc
  have hsp : ∀ c ∈ commaSep ls, c ≠ ' ' := commaSep_chars (P := fun c => c ≠ ' ') (by decide) fun w hw c hc => (clean_ne (hch w hw c hc)).2.2.1
  have hf : (commaSep ls).filter (· != ' ') = commaSep ls := by rw [List.filter_eq_self]; intro c hc; simpa using hsp c hc
  have hparse : parseItems (splitComma (commaSep ls)) = .ok (items.map fun v => ⟨v, false⟩) := by
    cases ls with
    | nil =>
      simp only [commaSep, splitComma, parseItems, if_true]
      simpa [parseItems] using e4
    | cons w ws =>
      rw [splitComma_commaSep _ (by simp) fun w hw c hc => (clean_ne (hch w hw c hc)).1]
      exact e4
  have body : parseRoster ((if front then ['!'] else []) ++ ((if false = true then ['!', '{'] else ['{']) ++ commaSep ls ++ ['}']) ++ if back then ['\''] else []) =
      .ok (items.map fun v => ⟨v, false⟩, front != back) := by
    unfold parseRoster
    have e : (((if front then ['!'] else []) ++ ((if false = true then ['!', '{'] else ['{']) ++ commaSep ls ++ ['}']) ++ if back then ['\''] else []).filter (· != ' ')) =
        (if front then ['!'] else []) ++ ('{' :: (commaSep ls ++ ('}' :: if back then ['\''] else []))) := by
      cases front <;> cases back <;> simp [List.filter_append, hf]
    have g : ('{' :: (commaSep ls ++ ['}'])).getLast? = some '}' := by rw [← List.cons_append, List.getLast?_append]; rfl
    have g2 : ('{' :: (commaSep ls ++ ['}', '\''])).getLast? = some '\'' := by rw [← List.cons_append, List.getLast?_append]; rfl
    have dl : (commaSep ls ++ ['}']).dropLast = commaSep ls := by simp
    have dl2 : ('{' :: (commaSep ls ++ ['}', '\''])).dropLast = '{' :: (commaSep ls ++ ['}']) := by
      have : '{' :: (commaSep ls ++ ['}', '\'']) = ('{' :: (commaSep ls ++ ['}'])) ++ ['\''] := by simp
      rw [this, List.dropLast_concat]
    simp only [e]
    cases front <;> cases back
    · simp [dl, hparse, Except.map, g]
    · simp [dl, dl2, hparse, Except.map, g, g2]
    · simp [dl, hparse, Except.map, g]
    · simp [dl, dl2, hparse, Except.map, g, g2]
  simp only [rosterOfString, body, mkRoster, hd]

/-- `!{1,2}'` is the roster of 1 and 2 -/
example : (match rosterOfString "!{1,2}'".toList with | .ok s => (s.contains (.num (.int 2)) none).toOption | .error _ => none) = some true ∧
    (match rosterOfString "{1,2}'".toList with | .ok s => (s.contains (.num (.int 2)) none).toOption | .error _ => none) = some false := by decide +kernel

/-- Disagreement: one bracket is enough, and the character where the other one is expected is dropped: `{1,23` is read as `{1,2}`, `12,3}` as `{2,3}`; and the string form of a roster with 0 is rejected. -/
theorem C52_roster_wrong : rosterOfString "{1,23".toList = .ok (mkRoster [⟨.num (.int 1), false⟩, ⟨.num (.int 2), false⟩] false) ∧
    rosterOfString "12,3}".toList = .ok (mkRoster [⟨.num (.int 2), false⟩, ⟨.num (.int 3), false⟩] false) ∧
    rosterRepr [.num (.int 0), .num (.int 5)] false = some "{0,5}".toList ∧ rosterOfString "{0,5}".toList = .error .type := by
  refine ⟨rfl, rfl, by rfl, rfl⟩

example : rosterRepr [.num (.int 5), .var "ab", .num .negInf] true = some "!{5,ab,-inf}".toList ∧ printable (.num (.int 5)) := by
  refine ⟨by rfl, by simp [printable]⟩
example : (MSet.roster [.num (.int 1)] false).eq (fun _ _ => false) (.roster [.num (.int 1)] false) = true := by decide +kernel

/-! ### members that raise, cardinality of combinations -/

/-- the exception of an answer -/
def raised : Except MErr Bool → Option MErr
  | .error e => some e
  | .ok _ => none

/-- the loop over members none of which gives the stopping answer: the last exception counts -/
theorem loop_raises (stop : Bool) (v : El) (d : Option Dict) : ∀ (l : List MSet) (saved : Option MErr), (∀ s ∈ l, s.isMSet = true) → (∀ s ∈ l, s.contains v d ≠ .ok stop) →
    MSet.loop stop l v d saved = loopEnd ((l.filterMap fun s => raised (s.contains v d)).getLast?.or saved) := by
  intro l
  induction l with
  | nil => intro saved _ _; rfl
  | cons s ss ih =>
    intro saved hm hn
    have ih := fun sv => ih sv (fun s hs => hm s (by simp [hs])) fun s hs => hn s (by simp [hs])
    have h1 := hn s (by simp)
    simp only [MSet.loop, loopStep, hm s (by simp), if_true]
    cases hc : s.contains v d with
    | ok b =>
      have : b ≠ stop := fun e => h1 (by rw [hc, e])
      simp only [this, if_false, ih]
      simp [hc, raised]
    | error e =>
      simp only [ih]
      have hr : raised (s.contains v d) = some e := by rw [hc]; rfl
      simp only [List.filterMap_cons, hr]
      cases h : List.getLast? (List.filterMap (fun s => raised (s.contains v d)) ss) with
      | none => rw [List.getLast?_cons, h]; rfl
      | some x => rw [List.getLast?_cons, h]; rfl

/-- C39: no member hits, some raise: the union raises the exception of the last of them. -/
theorem C39_union_raises (items : List MSet) (compl : Bool) (v : El) (d : Option Dict) (hv : ∀ e d', v ≠ .pair e d') (hm : ∀ s ∈ items, s.isMSet = true)
    (hn : ∀ s ∈ items, s.contains v d ≠ .ok true) (e : MErr) (he : (items.filterMap fun s => raised (s.contains v d)).getLast? = some e) :
    (MSet.combine items true compl).contains v d = .error e := by
  have hu : unpair v d = (v, d) := by cases v <;> first | rfl | exact absurd rfl (hv _ _)
  simp only [MSet.contains, hu, loop_raises true v d items none hm hn, he]
  rfl

/-- C39: no member misses, some raise: the intersection raises the exception of the last of them. -/
theorem C39_intersection_raises (items : List MSet) (compl : Bool) (v : El) (d : Option Dict) (hv : ∀ e d', v ≠ .pair e d') (hm : ∀ s ∈ items, s.isMSet = true)
    (hn : ∀ s ∈ items, s.contains v d ≠ .ok false) (e : MErr) (he : (items.filterMap fun s => raised (s.contains v d)).getLast? = some e) :
    (MSet.combine items false compl).contains v d = .error e := by
  have hu : unpair v d = (v, d) := by cases v <;> first | rfl | exact absurd rfl (hv _ _)
  simp only [MSet.contains, hu, loop_raises false v d items none hm hn, he]
  rfl

/-- C39: one miss is enough for an intersection, whatever other mSet members raise -/
theorem C39_intersection_miss (items : List MSet) (compl : Bool) (v : El) (d : Option Dict) (hv : ∀ e d', v ≠ .pair e d') (hm : ∀ s ∈ items, s.isMSet = true)
    (h : ∃ s ∈ items, s.contains v d = .ok false) : (MSet.combine items false compl).contains v d = .ok compl := by
  have hu : unpair v d = (v, d) := by cases v <;> first | rfl | exact absurd rfl (hv _ _)
  have : ∀ (l : List MSet) sv, (∀ s ∈ l, s.isMSet = true) → (∃ s ∈ l, s.contains v d = .ok false) → MSet.loop false l v d sv = .ok true := by
    intro l
    induction l with
    | nil => rintro sv _ ⟨s, hs, _⟩; simp at hs
    | cons s ss ih =>
      rintro sv hm ⟨t, ht, htc⟩
      simp only [MSet.loop, loopStep]
      rcases List.mem_cons.1 ht with rfl | ht
      · simp [htc]
      · have := fun sv => ih sv (fun s hs => hm s (by simp [hs])) ⟨t, ht, htc⟩
        split
        · split
          · rfl
          · exact this _
        · rw [if_pos (hm s (by simp))]; exact this _
  simp only [MSet.contains, hu, this items none hm h, Except.map]
  cases compl <;> rfl

/-- C40: the cardinality of a union is the sum of the cardinalities of its members (common elements are counted more than once, so it is an upper bound of the number of elements). -/
theorem C40_union_cardinality (items : List MSet) (compl : Bool) (ns : List Int) (h : items.map MSet.card = ns.map Num.int) : (MSet.combine items true compl).card = .int ns.sum := by
  have : ∀ (l : List MSet) (ns : List Int), l.map MSet.card = ns.map Num.int → MSet.cardSum l = .int ns.sum := by
    intro l
    induction l with
    | nil => intro ns h; cases ns <;> simp_all [MSet.cardSum]
    | cons s ss ih =>
      intro ns h
      cases ns with
      | nil => simp at h
      | cons n ns =>
        simp only [List.map_cons, List.cons.injEq] at h
        simp only [MSet.cardSum, h.1, ih ns h.2, List.sum_cons]
  rw [MSet.card, if_pos rfl, this items ns h]

/-- C40: the cardinality of an intersection is the smallest cardinality of its members (an upper bound of the number of elements). -/
theorem C40_intersection_cardinality (items : List MSet) (compl : Bool) (hm : ∀ s ∈ items, s.isMSet = true) (ns : List Int) (hne : ns ≠ []) (h : items.map MSet.card = ns.map Num.int) :
    ∃ n ∈ ns, (MSet.combine items false compl).card = .int n ∧ ∀ m ∈ ns, n ≤ m := by
  have : ∀ (l : List MSet) (ns : List Int), (∀ s ∈ l, s.isMSet = true) → ns ≠ [] → l.map MSet.card = ns.map Num.int → ∃ n ∈ ns, MSet.cardMin l = .int n ∧ ∀ m ∈ ns, n ≤ m := by
    intro l
    induction l with
    | nil => intro ns _ hne h; cases ns <;> simp_all
    | cons s ss ih =>
      intro ns hm hne h
      cases ns with
      | nil => simp at h
      | cons n ns =>
        simp only [List.map_cons, List.cons.injEq] at h
        have hs : s.isMSet = true := hm s (by simp)
        by_cases hn : ns = []
        · subst hn
          have : ss = [] := by simpa using h.2
          subst this
          refine ⟨n, by simp, ?_, by simp⟩
          simp [MSet.cardMin, hs, h.1, Num.lt]
        · obtain ⟨k, hk, hc, hle⟩ := ih ns (fun s hs => hm s (by simp [hs])) hn h.2
          have hlt : (Num.int k).lt (Num.int n) = true ↔ k < n := by rw [lt_iff (by simp) (by simp)]; simp [Num.pos]
          by_cases hkn : k < n
          · refine ⟨k, by simp [hk], ?_, ?_⟩
            · simp only [MSet.cardMin, hs, hc, h.1, hlt.2 hkn]; rfl
            · intro m hm'
              rcases List.mem_cons.1 hm' with rfl | hm'
              · omega
              · exact hle m hm'
          · refine ⟨n, by simp, ?_, ?_⟩
            · have : (Num.int k).lt (Num.int n) = false := by rw [← Bool.not_eq_true, hlt]; exact hkn
              simp only [MSet.cardMin, hs, hc, h.1, this]; rfl
            · intro m hm'
              rcases List.mem_cons.1 hm' with rfl | hm'
              · omega
              · have := hle m hm'; omega
  obtain ⟨n, hn, hc, hle⟩ := this items ns hm hne h
  exact ⟨n, hn, by rw [MSet.card]; exact hc, hle⟩

example : (MSet.combine [.interval (mkInterval ⟨.num (.int 1), false⟩ ⟨.num (.int 4), false⟩ true false), .roster [.num (.int 3)] false] true false).card = .int 5 := by decide +kernel
example : (MSet.combine [.interval (mkInterval ⟨.var "x", false⟩ ⟨.num (.int 4), false⟩ true false), .roster [.num (.int 3)] false] true false).contains (.num (.int 5)) none = .error .type := by decide +kernel

/-- the kind of a set object: 0 interval, 1 roster, 2 combination, 3 a container of another kind -/
def MSet.kind : MSet → Nat
  | .interval _ => 0
  | .roster _ _ => 1
  | .combine _ _ _ => 2
  | .other _ _ => 3

/-- C51 (kinds): an interval, a roster and a combination are never equal to a set of another kind, whatever their members. -/
theorem C51_kinds (oeq : MSet → MSet → Bool) (s t : MSet) (hs : s.kind ≠ 3) (hk : s.kind ≠ t.kind) : s.eq oeq t = false := by
  cases s <;> cases t <;> simp_all [MSet.kind, MSet.eq]

/-- the hypotheses of `C51_kinds` can be met, also by sets with the same members -/
example : ∃ s t : MSet, s.kind ≠ 3 ∧ s.kind ≠ t.kind ∧ s.contains (.num (.int 3)) none = t.contains (.num (.int 3)) none :=
  ⟨.roster [.num (.int 3)] false, .interval (mkInterval ⟨.num (.int 3), false⟩ ⟨.num (.int 3), false⟩ true false), by decide, by decide, by decide +kernel⟩

end MSets
