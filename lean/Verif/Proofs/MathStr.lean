import Verif.Model.MathStr
import Mathlib.Data.Nat.Digits.Lemmas
/-
Lemmas for the round trip of the string form of intervals.
-/
namespace MSets

/-- characters of printed limits -/
def clean (c : Char) : Bool := isVarChar c || c == '-'

theorem digitChar_digit : ∀ d, d < 10 → isDigit (digitChar d) = true ∧ (digitChar d).toNat - 48 = d ∧ (d ≠ 0 → digitChar d ≠ '0') := by decide

theorem foldl_digits : ∀ (l : List Nat), (∀ d ∈ l, d < 10) → (l.map digitChar).reverse.foldl (fun a c => 10 * a + (c.toNat - 48)) 0 = Nat.ofDigits 10 l := by
  intro l h
  rw [List.foldl_reverse]
  induction l with
  | nil => rfl
  | cons d l ih =>
    simp only [List.map_cons, List.foldr_cons, Nat.ofDigits_cons]
    rw [ih (fun d hd => h d (by simp [hd])), (digitChar_digit d (h d (by simp))).2.1]
    first | omega | (simp only [Nat.cast_id]; omega)

theorem pyNat_decStr (n : Nat) (hn : n ≠ 0) : pyNat (decStr n) = some n := by
  have hd : ∀ d ∈ Nat.digits 10 n, d < 10 := fun d hd => Nat.digits_lt_base (by decide) hd
  have hne : ((Nat.digits 10 n).map digitChar).reverse ≠ [] := by simp [Nat.digits_ne_nil_iff_ne_zero.2 hn]
  have hall : ((Nat.digits 10 n).map digitChar).reverse.all isDigit = true := by
    simp only [List.all_reverse, List.all_map, List.all_eq_true]
    exact fun d h => (digitChar_digit d (hd d h)).1
  simp only [pyNat, decStr, if_neg hn, hne, ne_eq, not_false_eq_true, hall, and_self, if_true, foldl_digits _ hd, Nat.ofDigits_digits]

/-- the decimal text of a positive number: a first digit other than 0, then digits -/
theorem decStr_form (n : Nat) (hn : n ≠ 0) : ∃ c cs, decStr n = c :: cs ∧ c ≠ '0' ∧ (decStr n).all isDigit = true := by
  have hd : ∀ d ∈ Nat.digits 10 n, d < 10 := fun d hd => Nat.digits_lt_base (by decide) hd
  have hne := (Nat.digits_ne_nil_iff_ne_zero (b := 10)).2 hn
  have hl := Nat.getLast_digit_ne_zero 10 hn
  have e : decStr n = digitChar ((Nat.digits 10 n).getLast hne) :: ((Nat.digits 10 n).dropLast.map digitChar).reverse := by
    simp only [decStr, if_neg hn]
    conv_lhs => rw [← List.dropLast_append_getLast hne]
    simp
  refine ⟨_, _, e, (digitChar_digit _ (hd _ (List.getLast_mem hne))).2.2 hl, ?_⟩
  simp only [decStr, if_neg hn, List.all_reverse, List.all_map, List.all_eq_true]
  exact fun d h => (digitChar_digit d (hd d h)).1

theorem isDigit_clean {c : Char} (h : isDigit c = true) : clean c = true := by simp [clean, isVarChar, h]

/-- facts about clean characters -/
theorem clean_ne {c : Char} (h : clean c = true) : c ≠ ',' ∧ c ≠ '.' ∧ c ≠ ' ' ∧ isClose c = false := by
  refine ⟨?_, ?_, ?_, ?_⟩
  · rintro rfl; revert h; decide
  · rintro rfl; revert h; decide
  · rintro rfl; revert h; decide
  · simp only [isClose, Bool.or_eq_false_iff, beq_eq_false_iff_ne]
    constructor <;> (rintro rfl; revert h; decide)

theorem lastBr_clean : ∀ (l : List Char), l.all clean = true → lastBr l = none := by
  intro l
  induction l with
  | nil => intro _; rfl
  | cons c cs ih =>
    intro h
    simp only [List.all_cons, Bool.and_eq_true] at h
    simp only [lastBr, ih h.2, (clean_ne h.1).2.2.2]; rfl

theorem lastBr_close : ∀ (l : List Char) (b : Char), isClose b = true → lastBr (l ++ [b]) = some (l, b, []) := by
  intro l
  induction l with
  | nil => intro b hb; simp [lastBr, hb]
  | cons c cs ih => intro b hb; simp [lastBr, ih b hb]

theorem findClose_close {l : List Char} (hl : l ≠ []) {b : Char} (hb : isClose b = true) : findClose (l ++ [b]) = some (l, b, []) := by
  cases l with
  | nil => exact absurd rfl hl
  | cons c cs => simp [findClose, lastBr_close cs b hb]

theorem sepHere_none {c : Char} (h1 : c ≠ ',') (h2 : c ≠ '.') (cs : List Char) : sepHere (c :: cs) = none := by
  unfold sepHere
  split
  · rename_i heq; simp only [List.cons.injEq] at heq; exact absurd heq.1 h1
  · rename_i heq; simp only [List.cons.injEq] at heq; exact absurd heq.1 h2
  · rfl

theorem lastSep_none : ∀ (l : List Char), (∀ c ∈ l, c ≠ ',' ∧ c ≠ '.') → lastSep l = none := by
  intro l
  induction l with
  | nil => intro _; rfl
  | cons c cs ih =>
    intro h
    simp only [lastSep, ih (fun c hc => h c (by simp [hc])), sepHere_none (h c (by simp)).1 (h c (by simp)).2, Option.map_none]

theorem lastSep_prefix : ∀ (l r : List Char) (p x), lastSep r = some (p, x) → lastSep (l ++ r) = some (l ++ p, x) := by
  intro l
  induction l with
  | nil => intro r p x h; exact h
  | cons c cs ih => intro r p x h; simp only [List.cons_append, lastSep, ih r p x h]

theorem strip_id {s : List Char} (h : ∀ c ∈ s, c ≠ ' ') : strip s = s := by
  have : ∀ l : List Char, (∀ c ∈ l, c ≠ ' ') → l.dropWhile (· == ' ') = l := by
    intro l hl
    cases l with
    | nil => rfl
    | cons c cs => rw [List.dropWhile_cons_of_neg]; simpa using hl c (by simp)
  unfold strip
  rw [this s h, this s.reverse (by simpa using h), List.reverse_reverse]

/-- the separator text -/
def sepStr (dots : Bool) : List Char := if dots then ['.', '.'] else [',']

theorem matchMath_clean {lo hi : List Char} (hl : lo ≠ []) (hh : hi ≠ []) (ch : hi.all clean = true) (dots : Bool) {b : Char} (hb : isClose b = true) :
    matchMath (lo ++ sepStr dots ++ hi ++ [b]) = some (lo, dots, hi, b, []) := by
  have hb' : b ≠ ',' ∧ b ≠ '.' := by
    simp only [isClose, Bool.or_eq_true, beq_iff_eq] at hb
    rcases hb with rfl | rfl <;> decide
  have hall : ∀ c ∈ hi ++ [b], c ≠ ',' ∧ c ≠ '.' := by
    intro c hc
    rcases List.mem_append.1 hc with hc | hc
    · have := clean_ne (List.all_eq_true.1 ch c hc); exact ⟨this.1, this.2.1⟩
    · rw [List.mem_singleton.1 hc]; exact hb'
  have hn := lastSep_none _ hall
  have hs : lastSep (sepStr dots ++ (hi ++ [b])) = some ([], dots, hi, b, []) := by
    cases dots
    · simp only [sepStr, Bool.false_eq_true, if_false, List.cons_append, List.nil_append, lastSep, hn, sepHere, findClose_close hh hb, Option.map_some]
    · have h2 : sepHere ('.' :: (hi ++ [b])) = none := by
        cases hi with
        | nil => exact absurd rfl hh
        | cons h0 hs =>
          have := (clean_ne (List.all_eq_true.1 ch h0 (by simp))).2.1
          unfold sepHere
          split
          · rename_i heq; simp at heq
          · rename_i heq; simp only [List.cons_append, List.cons.injEq] at heq; exact absurd heq.2.1 this
          · rfl
      have h3 : sepHere ('.' :: '.' :: (hi ++ [b])) = some (true, hi, b, []) := by
        simp only [sepHere, findClose_close hh hb, Option.map_some]
      simp only [sepStr, if_true, List.cons_append, List.nil_append, lastSep, hn, h2, h3, Option.map_none, Option.map_some]
  cases lo with
  | nil => exact absurd rfl hl
  | cons c cs =>
    have := lastSep_prefix cs _ _ _ hs
    simp only [List.append_nil] at this
    simp only [List.cons_append, matchMath, List.append_assoc, this, Option.map_some]

/-- limits whose text can be parsed: integers other than 0, infinities, proper variable names -/
def printable : IVal → Prop
  | .num (.int z) => z ≠ 0
  | .num .posInf => True
  | .num .negInf => True
  | .var s => (∃ c cs, s.toList = c :: cs ∧ isLetter c = true) ∧ s.toList.all isVarChar = true ∧ s.toList ≠ ['i', 'n', 'f']
  | _ => False

theorem isVarChar_clean {c : Char} (h : isVarChar c = true) : clean c = true := by simp [clean, h]

theorem limStr_clean {v : IVal} (hv : printable v) : ∃ s, limStr v = some s ∧ s ≠ [] ∧ s.all clean = true := by
  match v, hv with
  | .num (.int z), hz =>
    have hn : z.natAbs ≠ 0 := by simpa [printable] using hz
    obtain ⟨c, cs, e, _, h3⟩ := decStr_form _ hn
    have hc : (decStr z.natAbs).all clean = true := List.all_eq_true.2 fun x hx => isDigit_clean (List.all_eq_true.1 h3 x hx)
    refine ⟨_, rfl, ?_, ?_⟩
    · simp only [intStr]; split
      · simp
      · rw [e]; simp
    · simp only [intStr]; split
      · simp only [List.all_cons, hc, Bool.and_true]; decide
      · exact hc
  | .num .posInf, _ => exact ⟨_, rfl, by decide, by decide⟩
  | .num .negInf, _ => exact ⟨_, rfl, by decide, by decide⟩
  | .var s, ⟨⟨c, cs, e, _⟩, h2, _⟩ =>
    refine ⟨_, rfl, by rw [e]; simp, List.all_eq_true.2 fun x hx => isVarChar_clean (List.all_eq_true.1 h2 x hx)⟩

theorem letter_not_digit {c : Char} (h : isDigit c = true) : isLetter c = false ∧ c ≠ '-' ∧ c ≠ '+' ∧ c ≠ 'i' := by
  simp only [isDigit, Bool.and_eq_true, decide_eq_true_eq] at h
  have h1 : c ≤ '9' := h.2
  have h0 : '0' ≤ c := h.1
  refine ⟨?_, ?_, ?_, ?_⟩
  · simp only [isLetter, Bool.or_eq_false_iff, Bool.and_eq_false_iff, decide_eq_false_iff_not]
    exact ⟨.inl fun h' => absurd (Char.le_trans h' h1) (by decide), .inl fun h' => absurd (Char.le_trans h' h1) (by decide)⟩
  · rintro rfl; revert h0; decide
  · rintro rfl; revert h0; decide
  · rintro rfl; revert h1; decide

theorem parseUnsigned_dec (n : Nat) (hn : n ≠ 0) : parseUnsigned (decStr n) = .ok (.int n) := by
  obtain ⟨c, cs, e, h0, h3⟩ := decStr_form n hn
  have hp := pyNat_decStr n hn
  rw [e] at hp h3 ⊢
  have hd : isDigit c = true := by simp only [List.all_cons, Bool.and_eq_true] at h3; exact h3.1
  obtain ⟨_, hm, hpl, hi⟩ := letter_not_digit hd
  have hpi : pyInt (c :: cs) = some (n : Int) := by
    unfold pyInt
    split
    · rename_i heq; simp only [List.cons.injEq] at heq; exact absurd heq.1 hm
    · rename_i heq; simp only [List.cons.injEq] at heq; exact absurd heq.1 hpl
    · rw [hp]; rfl
  unfold parseUnsigned
  rw [if_neg (by simp [hi])]
  split
  · rename_i heq; simp at heq
  · rename_i heq; simp only [List.cons.injEq] at heq; exact absurd heq.1 h0
  · rename_i heq; simp only [List.cons.injEq] at heq; exact absurd heq.1 h0
  · rw [hpi]

theorem parseItem_limStr {v : IVal} (hv : printable v) {s : List Char} (hs : limStr v = some s) (compl : Bool) : parseItem s compl = .ok ⟨v, compl⟩ := by
  obtain ⟨s', e', hne, hc⟩ := limStr_clean hv
  rw [hs] at e'; cases e'
  have hsp : strip s = s := strip_id fun c hc' => (clean_ne (List.all_eq_true.1 hc c hc')).2.2.1
  unfold parseItem
  rw [hsp]
  match v, hv, hs with
  | .num (.int z), hz, hs =>
    have hn : z.natAbs ≠ 0 := by simpa [printable] using hz
    simp only [limStr, Option.some.injEq] at hs
    subst hs
    by_cases hz0 : z < 0
    · simp only [intStr, hz0, if_true]
      have h2 : strip (decStr z.natAbs) = decStr z.natAbs := by
        apply strip_id
        intro c hc'
        simp only [intStr, hz0, if_true, List.all_cons, Bool.and_eq_true] at hc
        exact (clean_ne (List.all_eq_true.1 hc.2 c hc')).2.2.1
      have h3 : isLetter '-' = false := by decide
      simp only [h3, Bool.false_and, Bool.false_eq_true, if_false, if_true, h2, parseUnsigned_dec _ hn, Except.map, Num.neg]
      have hz' : -(z.natAbs : Int) = z := by omega
      first | rw [hz'] | (trace_state; simp [hz'])
    · simp only [intStr, hz0, if_false]
      obtain ⟨c, cs, e, h0, h3⟩ := decStr_form _ hn
      have hd : isDigit c = true := by rw [e] at h3; simp only [List.all_cons, Bool.and_eq_true] at h3; exact h3.1
      obtain ⟨hl, hm, hpl, hi⟩ := letter_not_digit hd
      have hpu := parseUnsigned_dec _ hn
      rw [e] at hpu ⊢
      simp only [hl, Bool.false_and, Bool.false_eq_true, if_false, hm, hpl, hd, Bool.true_or, if_true, hpu, Except.map]
      have hz' : (z.natAbs : Int) = z := by omega
      first | rw [hz'] | (trace_state; simp [hz'])
  | .num .posInf, _, hs => simp only [limStr, Option.some.injEq] at hs; subst hs; cases compl <;> decide
  | .num .negInf, _, hs => simp only [limStr, Option.some.injEq] at hs; subst hs; cases compl <;> decide
  | .var n, ⟨⟨c, cs, e, hl⟩, h2, h3⟩, hs =>
    simp only [limStr, Option.some.injEq] at hs
    rw [← hs]
    have h4 : String.ofList (c :: cs) = n := by rw [← e]; simp
    rw [e] at h2 h3 ⊢
    simp only [hl, h3, ne_eq, not_false_eq_true, decide_true, Bool.and_self, if_true, h2, h4]

theorem isPart_of {a p q : List Char} : isPart a (p ++ a ++ q) = true := by
  simp only [isPart, List.any_eq_true]
  refine ⟨a ++ q, ?_, by simp⟩
  rw [List.mem_tails]
  exact ⟨p, by simp⟩

end MSets
