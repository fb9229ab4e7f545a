import Verif.Props.MathSet
import Verif.Proofs.MathStr
/-
C52: the string form of an interval (`math_repr`) read back by the constructor gives the same interval.
-/
namespace MSets

theorem printable_swap {a b : Item} (ha : printable a.val) (hb : printable b.val) (int compl : Bool) :
    printable (mkInterval a b int compl).lower.val ∧ printable (mkInterval a b int compl).upper.val := by
  unfold mkInterval
  by_cases h : (!a.val.isVar && !b.val.isVar && a.gt b) = true
  · simp only [h, if_true]; exact ⟨hb, ha⟩
  · simp only [h, Bool.false_eq_true, if_false]; exact ⟨ha, hb⟩

/-- For every interval with integer (≠ 0), infinite or variable limits, open or closed, in any order, int-only or not, complement or not: its string form exists and
`mSetInterval(string)` is exactly that interval. (Partial: a limit 0 cannot be read back, see `C52_zero_wrong`; float limits are not modelled.) -/
theorem C52_repr_round_trip_partial (a b : Item) (int compl : Bool) (ha : printable a.val) (hb : printable b.val) :
    ∃ s, (mkInterval a b int compl).repr = some s ∧ ofString s = .ok (mkInterval a b int compl) := by
  have hself : mkInterval (mkInterval a b int compl).lower (mkInterval a b int compl).upper int compl = mkInterval a b int compl := by
    conv_rhs => rw [← C51_init_args a b int compl]
    have h1 : (mkInterval a b int compl).compl = compl := rfl
    have h2 : (mkInterval a b int compl).int = int := rfl
    cases compl <;> cases int <;> simp [ofArgs, Interval.args, h1, h2]
  obtain ⟨hlo, hup⟩ := printable_swap ha hb int compl
  have h1 : (mkInterval a b int compl).compl = compl := rfl
  have h2 : (mkInterval a b int compl).int = int := rfl
  generalize mkInterval a b int compl = I at *
  obtain ⟨lo, elo, nlo, clo⟩ := limStr_clean hlo
  obtain ⟨hi, ehi, nhi, chi⟩ := limStr_clean hup
  refine ⟨_, by simp only [Interval.repr, elo, ehi]; rfl, ?_⟩
  have hcl : isClose (if I.upper.compl then ')' else ']') = true := by split <;> rfl
  have nosp : ∀ (l : List Char), l.all clean = true → ∀ c ∈ l, c ≠ ' ' := fun l hl c hc => (clean_ne (List.all_eq_true.1 hl c hc)).2.2.1
  -- the part after the optional '!'
  have body : ∀ pre, parseMath ((if I.lower.compl then '(' else '[') :: (lo ++ (if I.int then ['.', '.'] else [',']) ++ hi ++ [if I.upper.compl then ')' else ']'])) pre =
      .ok (mkInterval I.lower I.upper int pre) := by
    intro pre
    have hm := matchMath_clean nlo nhi chi I.int hcl
    have hbody : ∀ c ∈ (if I.lower.compl then '(' else '[') :: (lo ++ (if I.int then ['.', '.'] else [',']) ++ hi ++ [if I.upper.compl then ')' else ']']), c ≠ ' ' := by
      intro c hc
      simp only [List.mem_cons, List.mem_append, List.not_mem_nil, or_false] at hc
      rcases hc with rfl | ((hc | hc) | hc) | rfl
      · split <;> decide
      · exact nosp lo clo c hc
      · split at hc <;> simp at hc <;> subst hc <;> decide
      · exact nosp hi chi c hc
      · split <;> decide
    have hf : ((if I.lower.compl then '(' else '[') :: (lo ++ (if I.int then ['.', '.'] else [',']) ++ hi ++ [if I.upper.compl then ')' else ']'])).filter (· != ' ') =
        (if I.lower.compl then '(' else '[') :: (lo ++ (if I.int then ['.', '.'] else [',']) ++ hi ++ [if I.upper.compl then ')' else ']']) := by
      rw [List.filter_eq_self]; intro c hc; simpa using hbody c hc
    unfold parseMath
    rw [hf]
    have hb1 : (if I.lower.compl then '(' else '[') = '(' ∨ (if I.lower.compl then '(' else '[') = '[' := by split <;> simp
    have hb2 : ((if I.lower.compl then '(' else '[') == '(') = I.lower.compl := by cases I.lower.compl <;> rfl
    have hb3 : ((if I.upper.compl then ')' else ']') == ')') = I.upper.compl := by cases I.upper.compl <;> rfl
    simp only [sepStr] at hm
    have hv1 : varOk ⟨I.lower.val, I.lower.compl⟩ lo ((if I.lower.compl then '(' else '[') :: (lo ++ (if I.int then ['.', '.'] else [',']) ++ hi ++ [if I.upper.compl then ')' else ']'])) = true := by
      unfold varOk; split
      · have := isPart_of (a := lo) (p := [if I.lower.compl then '(' else '[']) (q := (if I.int then ['.', '.'] else [',']) ++ hi ++ [if I.upper.compl then ')' else ']'])
        simpa using this
      · rfl
    have hv2 : varOk ⟨I.upper.val, I.upper.compl⟩ hi ((if I.lower.compl then '(' else '[') :: (lo ++ (if I.int then ['.', '.'] else [',']) ++ hi ++ [if I.upper.compl then ')' else ']'])) = true := by
      unfold varOk; split
      · have := isPart_of (a := hi) (p := (if I.lower.compl then '(' else '[') :: (lo ++ (if I.int then ['.', '.'] else [',']))) (q := [if I.upper.compl then ')' else ']'])
        simpa using this
      · rfl
    simp only [hb1, if_true, hm, true_or, hb2, hb3, parseItem_limStr hlo elo, parseItem_limStr hup ehi, hv1, hv2, Bool.and_self]
    rw [h2]
    cases pre <;> rfl
  have hsp : ∀ (c : Char), c ≠ ' ' → strip (c :: ((if I.lower.compl then '(' else '[') :: (lo ++ (if I.int then ['.', '.'] else [',']) ++ hi ++ [if I.upper.compl then ')' else ']']))) =
      c :: ((if I.lower.compl then '(' else '[') :: (lo ++ (if I.int then ['.', '.'] else [',']) ++ hi ++ [if I.upper.compl then ')' else ']'])) ∧
      strip ((if I.lower.compl then '(' else '[') :: (lo ++ (if I.int then ['.', '.'] else [',']) ++ hi ++ [if I.upper.compl then ')' else ']'])) =
      (if I.lower.compl then '(' else '[') :: (lo ++ (if I.int then ['.', '.'] else [',']) ++ hi ++ [if I.upper.compl then ')' else ']']) := by
    intro c0 hc0
    have hb : ∀ c ∈ (if I.lower.compl then '(' else '[') :: (lo ++ (if I.int then ['.', '.'] else [',']) ++ hi ++ [if I.upper.compl then ')' else ']']), c ≠ ' ' := by
      intro c hc
      simp only [List.mem_cons, List.mem_append, List.not_mem_nil, or_false] at hc
      rcases hc with rfl | ((hc | hc) | hc) | rfl
      · split <;> decide
      · exact nosp lo clo c hc
      · split at hc <;> simp at hc <;> subst hc <;> decide
      · exact nosp hi chi c hc
      · split <;> decide
    refine ⟨strip_id ?_, strip_id hb⟩
    intro c hc
    rcases List.mem_cons.1 hc with rfl | hc
    · exact hc0
    · exact hb c hc
  obtain ⟨s1, s2⟩ := hsp '!' (by decide)
  rw [h1]
  unfold ofString
  cases compl
  · simp only [Bool.false_eq_true, if_false, List.nil_append, s2]
    have := body false
    cases hc : I.lower.compl <;> simp only [hc, Bool.false_eq_true, if_false, if_true] at this ⊢ <;> rw [this, hself]
  · simp only [if_true, List.cons_append, List.nil_append, s1, s2]
    have := body true
    cases hc : I.lower.compl <;> simp only [hc, Bool.false_eq_true, if_false, if_true] at this ⊢ <;> rw [this, hself]

/-- Disagreement: an interval with the limit 0 has a string form that the constructor refuses with a TypeError. -/
theorem C52_zero_wrong (o : Bool) :
    (mkInterval ⟨.num (.int 0), o⟩ ⟨.num .posInf, false⟩ true false).repr = some ((if o then '(' else '[') :: "0..inf]".toList) ∧
    ofString ((if o then '(' else '[') :: "0..inf]".toList) = .error .type := by
  cases o <;> decide +kernel

/-! ### non-vacuity -/
example : printable (.num (.int (-12))) ∧ printable (.num .posInf) ∧ printable (.var "x1") := by
  refine ⟨by simp [printable], trivial, ⟨'x', ['1'], rfl, rfl⟩, by decide, by decide⟩
example : ofString "!(-12..x1]".toList = .ok (mkInterval ⟨.num (.int (-12)), true⟩ ⟨.var "x1", false⟩ true true) := by decide +kernel
example : ofString "[ 120 , 7 )".toList = .ok (mkInterval ⟨.num (.int 120), false⟩ ⟨.num (.int 7), true⟩ false false) := by decide +kernel

end MSets
