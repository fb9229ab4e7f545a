import Verif.Model.Json
import Verif.Proofs.MathStr
/-
JSON texts: the parser reads what the printer (and the hand made framing of the serializer) writes.
-/
namespace Json

open MSets (isDigit decStr intStr pyNat)

def ws (w : List Char) : Prop := ∀ c ∈ w, isWs c = true

/-! ### whitespace -/

theorem skipWs_append {w s : List Char} (hw : ws w) : skipWs (w ++ s) = skipWs s := by
  induction w with
  | nil => rfl
  | cons c w ih =>
    have : isWs c = true := hw c (by simp)
    simp only [skipWs, List.cons_append, List.dropWhile_cons, this, if_true]
    exact ih fun d hd => hw d (by simp [hd])

theorem skipWs_cons {c : Char} {s : List Char} (h : isWs c = false) : skipWs (c :: s) = c :: s := by simp [skipWs, h]

theorem skipWs_ws {w : List Char} (hw : ws w) : skipWs w = [] := by
  have := skipWs_append (s := []) hw; simpa [skipWs] using this

theorem nl_ws (st : Style) (k : Nat) : ws (st.nl k) := by
  intro c hc
  unfold Style.nl at hc
  split at hc
  · rcases List.mem_cons.1 hc with rfl | hc
    · rfl
    · rw [List.eq_of_mem_replicate hc]; rfl
  · simp at hc

/-! ### strings -/

theorem hexVal_digit : ∀ n, n < 16 → hexVal (hexDigit n) = some n := by decide

theorem hex4_u4 (n : Nat) (h : n < 65536) (r : List Char) :
    hex4 (hexDigit (n / 4096 % 16) :: hexDigit (n / 256 % 16) :: hexDigit (n / 16 % 16) :: hexDigit (n % 16) :: r) = some (n, r) := by
  have m : ∀ k, k % 16 < 16 := fun k => Nat.mod_lt _ (by decide)
  simp only [hex4, hexVal_digit _ (m _)]
  congr 2; omega

theorem char_valid (c : Char) : c.toNat < 55296 ∨ (57343 < c.toNat ∧ c.toNat < 1114112) := by
  have h : Nat.isValidChar c.toNat := c.valid
  exact h

theorem toNat_inj {c d : Char} (h : c.toNat = d.toNat) : c = d := by
  have h1 := Char.ofNat_toNat c
  have h2 := Char.ofNat_toNat d
  rw [← h1, ← h2, h]

theorem uEsc_pair (hi lo : Nat) (r : List Char) (h1 : 55296 ≤ hi) (h2 : hi < 56320) (h3 : 56320 ≤ lo) (h4 : lo < 57344) :
    uEsc (hexDigit (hi / 4096 % 16) :: hexDigit (hi / 256 % 16) :: hexDigit (hi / 16 % 16) :: hexDigit (hi % 16) ::
      '\\' :: 'u' :: hexDigit (lo / 4096 % 16) :: hexDigit (lo / 256 % 16) :: hexDigit (lo / 16 % 16) :: hexDigit (lo % 16) :: r) =
      some (Char.ofNat (65536 + (hi - 55296) * 1024 + (lo - 56320)), r) := by
  have g1 : ¬ (hi < 55296 ∨ 57344 ≤ hi) := by omega
  have g2 : 56320 ≤ lo ∧ lo < 57344 := ⟨h3, h4⟩
  simp only [uEsc, hex4_u4 hi (by omega), if_neg g1, h2, and_self, if_true, hex4_u4 lo (by omega), g2]

theorem strChar_esc (ascii : Bool) (c : Char) (r : List Char) : strChar (escChar ascii c ++ r) = some (c, r) ∧ (escChar ascii c).head? ≠ some '"' ∧ escChar ascii c ≠ [] := by
  have hv := char_valid c
  unfold escChar
  split; · next h => subst h; exact ⟨by simp [strChar], by simp, by simp⟩
  split; · next h => subst h; exact ⟨by simp [strChar], by simp, by simp⟩
  split; · next h => subst h; exact ⟨by simp [strChar], by simp, by simp⟩
  split; · next h => subst h; exact ⟨by simp [strChar], by simp, by simp⟩
  split; · next h => subst h; exact ⟨by simp [strChar], by simp, by simp⟩
  split; · next h => subst h; exact ⟨by simp [strChar], by simp, by simp⟩
  split; · next h => subst h; exact ⟨by simp [strChar], by simp, by simp⟩
  have one : ∀ (hn : c.toNat < 65536), strChar (u4 c.toNat ++ r) = some (c, r) := by
    intro hn
    simp only [u4, List.cons_append, List.nil_append, strChar, if_true, uEsc, hex4_u4 _ hn]
    have : c.toNat < 55296 ∨ 57344 ≤ c.toNat := by omega
    rw [if_pos this, Char.ofNat_toNat]
  split
  · exact ⟨one (by omega), by simp [u4], by simp [u4]⟩
  · next h1 h2 h3 h4 h5 h6 h7 h8 =>
    split
    · split
      · next h => exact ⟨one h, by simp [u4], by simp [u4]⟩
      · next h9 h10 =>
        refine ⟨?_, by simp [u4], by simp [u4]⟩
        have := uEsc_pair (55296 + (c.toNat - 65536) / 1024) (56320 + (c.toNat - 65536) % 1024) r (by omega) (by omega) (by omega) (by omega)
        simp only [u4, List.cons_append, List.nil_append, strChar, if_true] at this ⊢
        rw [this]
        have e : 65536 + (55296 + (c.toNat - 65536) / 1024 - 55296) * 1024 + (56320 + (c.toNat - 65536) % 1024 - 56320) = c.toNat := by omega
        rw [e, Char.ofNat_toNat]
    · refine ⟨?_, ?_, by simp⟩
      · simp only [List.cons_append, List.nil_append, strChar, if_neg h2, if_neg h8]
      · simpa using h1

theorem strBody_lit (ascii : Bool) : ∀ (s r : List Char) (n : Nat), s.length < n → strBody n (s.flatMap (escChar ascii) ++ '"' :: r) = some (s, r) := by
  intro s
  induction s with
  | nil => intro r n hn; cases n with | zero => simp at hn | succ n => simp [strBody]
  | cons c s ih =>
    intro r n hn
    cases n with
    | zero => simp at hn
    | succ n =>
      obtain ⟨h1, h2, h3⟩ := strChar_esc ascii c (s.flatMap (escChar ascii) ++ '"' :: r)
      simp only [List.flatMap_cons, List.append_assoc]
      generalize he : escChar ascii c = e at *
      cases e with
      | nil => exact absurd rfl h3
      | cons d e =>
        have hd : d ≠ '"' := by simpa using h2
        simp only [List.cons_append] at h1 ⊢
        simp only [strBody, if_neg hd, h1]
        rw [ih r n (by simp at hn; omega)]; rfl

theorem flatMap_len (ascii : Bool) (s : List Char) : s.length ≤ (s.flatMap (escChar ascii)).length := by
  induction s with
  | nil => simp
  | cons c s ih =>
    have h3 := (strChar_esc ascii c []).2.2
    have : 0 < (escChar ascii c).length := List.length_pos_iff.2 h3
    simp only [List.flatMap_cons, List.length_append, List.length_cons]; omega

/-! ### texts of documents -/

/-- what may follow a number -/
def stops (r : List Char) : Prop := ∀ c ∈ r.head?, isNumChar c = false

/-- number literals are made of number characters -/
theorem natLit_all {t : List Char} (h : natLit t = true) : t.all isDigit = true ∧ t ≠ [] := by
  cases t with
  | nil => simp [natLit] at h
  | cons c r => simp only [natLit, Bool.and_eq_true] at h; exact ⟨by simp only [List.all_cons, h.1.1, h.1.2]; rfl, by simp⟩

theorem isDigit_num {c : Char} (h : isDigit c = true) : isNumChar c = true := by simp [isNumChar, h]

theorem all_digit_num {t : List Char} (h : t.all isDigit = true) : t.all isNumChar = true := by
  rw [List.all_eq_true] at h ⊢; exact fun c hc => isDigit_num (h c hc)

theorem expLit_all {t : List Char} (h : expLit t = true) : t.all isNumChar = true := by
  cases t with
  | nil => rfl
  | cons c r =>
    simp only [expLit, Bool.and_eq_true, Bool.or_eq_true, beq_iff_eq] at h
    have hc : isNumChar c = true := by rcases h.1 with rfl | rfl <;> rfl
    cases r with
    | nil => simp at h
    | cons d r' =>
      have h2 := h.2
      by_cases hd : (d == '+' || d == '-') = true
      · have hd0 : d = '+' ∨ d = '-' := by simpa using hd
        simp only [hd0, if_true, Bool.and_eq_true] at h2
        have hd' : isNumChar d = true := by
          simp only [Bool.or_eq_true, beq_iff_eq] at hd
          rcases hd with rfl | rfl <;> rfl
        simp only [List.all_cons, hc, hd', all_digit_num h2.2]; rfl
      · have hd0 : ¬ (d = '+' ∨ d = '-') := by simpa using hd
        simp only [hd0, if_false] at h2
        have := all_digit_num h2
        simp only [List.all_cons, hc, Bool.true_and] at this ⊢; exact this

theorem fracLit_all {t : List Char} (h : fracLit t = true) : t.all isNumChar = true := by
  cases t with
  | nil => rfl
  | cons c r =>
    simp only [fracLit] at h
    by_cases hc : (c == '.') = true
    · simp only [hc, if_true, Bool.and_eq_true] at h
      have h1 : (r.takeWhile isDigit).all isNumChar = true := all_digit_num (by simp)
      have h2 := expLit_all h.2
      have : c = '.' := by simpa using hc
      subst this
      have h3 : r.all isNumChar = true := by
        rw [← List.takeWhile_append_dropWhile (p := isDigit) (l := r), List.all_append, h1, h2]; rfl
      simp only [List.all_cons, h3]; rfl
    · simp only [hc, Bool.false_eq_true, if_false] at h
      exact expLit_all h

theorem numTok_all {t : List Char} {b : Bool} (h : numTok t = some b) : t.all isNumChar = true ∧ ∃ c r, t = c :: r ∧ isDigit c = true := by
  unfold numTok at h
  split at h
  · next hn =>
    refine ⟨all_digit_num (natLit_all hn).1, ?_⟩
    cases t with
    | nil => simp [natLit] at hn
    | cons c r => exact ⟨c, r, rfl, by simp only [natLit, Bool.and_eq_true] at hn; exact hn.1.1⟩
  · split at h
    · next hn =>
      simp only [Bool.and_eq_true] at hn
      have h1 := all_digit_num (natLit_all hn.1).1
      have h2 := fracLit_all hn.2
      constructor
      · rw [← List.takeWhile_append_dropWhile (p := isDigit) (l := t), List.all_append, h1, h2]; rfl
      · cases t with
        | nil => simp [natLit] at hn
        | cons c r =>
          refine ⟨c, r, rfl, ?_⟩
          by_contra hc
          have := (natLit_all hn.1).2
          simp [List.takeWhile_cons, hc] at this
    · simp at h

/-- literals of floats -/
def fltTok (t : List Char) : Prop := numVal t = some (.flt t)

theorem numVal_all {t : List Char} {j : J} (h : numVal t = some j) : t.all isNumChar = true ∧ ∃ c r, t = c :: r ∧ (isDigit c = true ∨ (c = '-' ∧ ∃ d r', r = d :: r' ∧ isDigit d = true)) := by
  unfold numVal at h
  cases t with
  | nil => simp at h
  | cons c r =>
    simp only at h
    by_cases hc : c = '-'
    · rw [if_pos hc] at h
      subst hc
      cases hr : numTok r with
      | none => rw [hr] at h; simp at h
      | some b =>
        obtain ⟨h1, d, r', h2, h3⟩ := numTok_all hr
        refine ⟨?_, '-', r, rfl, Or.inr ⟨rfl, d, r', h2, h3⟩⟩
        simp only [List.all_cons, h1]; rfl
    · rw [if_neg hc] at h
      cases hr : numTok (c :: r) with
      | none => rw [hr] at h; simp at h
      | some b =>
        obtain ⟨h1, d, r', h2, h3⟩ := numTok_all hr
        simp only [List.cons.injEq] at h2
        exact ⟨h1, c, r, rfl, Or.inl (h2.1 ▸ h3)⟩

theorem takeWhile_stop {p : Char → Bool} {t r : List Char} (ht : t.all p = true) (hr : ∀ c ∈ r.head?, p c = false) : (t ++ r).takeWhile p = t ∧ (t ++ r).dropWhile p = r := by
  induction t with
  | nil =>
    cases r with
    | nil => simp
    | cons c r => have := hr c (by simp); simp [this]
  | cons c t ih =>
    simp only [List.all_cons, Bool.and_eq_true] at ht
    simp [ht.1, ih ht.2]

theorem digit_facts {c : Char} (h : isDigit c = true) : c ≠ 'n' ∧ c ≠ 't' ∧ c ≠ 'f' ∧ c ≠ 'I' ∧ c ≠ 'N' ∧ c ≠ '-' ∧ c ≠ '[' ∧ c ≠ '{' ∧ c ≠ '"' ∧ isWs c = false ∧ c ≠ ']' ∧ c ≠ '}' := by
  refine ⟨?_, ?_, ?_, ?_, ?_, ?_, ?_, ?_, ?_, ?_, ?_, ?_⟩
  all_goals first
    | (rintro rfl; revert h; decide)
    | (cases hw : isWs c
       · rfl
       · simp only [isWs, Bool.or_eq_true, beq_iff_eq] at hw
         rcases hw with ((rfl | rfl) | rfl) | rfl <;> (revert h; decide))

theorem parseScalar_num {t r : List Char} {j : J} (h : numVal t = some j) (hr : stops r) : parseScalar (t ++ r) = some (j, r) := by
  obtain ⟨h1, c, t', rfl, h2⟩ := numVal_all h
  have hw := takeWhile_stop h1 hr
  have htail : (numVal (List.takeWhile isNumChar (c :: (t' ++ r)))).map (fun j => (j, List.dropWhile isNumChar (c :: (t' ++ r)))) = some (j, r) := by
    simp only [List.cons_append] at hw
    rw [hw.1, hw.2, h]; rfl
  have gen : c ≠ 'n' → c ≠ 't' → c ≠ 'f' → c ≠ 'I' → c ≠ 'N' → (c == '-' && (t' ++ r).head? == some 'I') = false → parseScalar (c :: t' ++ r) = some (j, r) := by
    intro a1 a2 a3 a4 a5 a6
    simp only [List.cons_append, parseScalar, if_neg a1, if_neg a2, if_neg a3, if_neg a4, if_neg a5]
    rw [if_neg, htail]
    simpa using a6
  rcases h2 with h2 | ⟨rfl, d, r', rfl, hd⟩
  · obtain ⟨a1, a2, a3, a4, a5, a6, -⟩ := digit_facts h2
    exact gen a1 a2 a3 a4 a5 (by simp [a6])
  · have := (digit_facts hd).2.2.2.1
    exact gen (by decide) (by decide) (by decide) (by decide) (by decide) (by simp [this])

theorem numVal_int (z : Int) : numVal (intStr z) = some (.int z) := by
  have key : ∀ n : Nat, numTok (decStr n) = some true ∧ pyNat (decStr n) = some n ∧ ∃ c r, decStr n = c :: r ∧ isDigit c = true := by
    intro n
    by_cases hn : n = 0
    · subst hn; exact ⟨rfl, rfl, '0', [], rfl, rfl⟩
    · obtain ⟨c, cs, e, h0, hd⟩ := MSets.decStr_form n hn
      have hd' := hd
      rw [e] at hd'
      simp only [List.all_cons, Bool.and_eq_true] at hd'
      refine ⟨?_, MSets.pyNat_decStr n hn, c, cs, e, hd'.1⟩
      unfold numTok
      rw [if_pos]
      rw [e]
      simp [natLit, hd'.1, h0]
      simpa using hd'.2
  obtain ⟨k1, k2, c, r, k3, k4⟩ := key z.natAbs
  unfold intStr
  split
  · simp only [numVal, if_true, k1, k2, Option.map_some]
    congr 2; omega
  · have hc := (digit_facts k4).2.2.2.2.2.1
    have : numVal (decStr z.natAbs) = (match numTok (decStr z.natAbs) with
      | some true => (pyNat (decStr z.natAbs)).map fun (k : Nat) => J.int (k : Int)
      | some false => some (.flt (decStr z.natAbs))
      | none => none) := by
      rw [k3]; simp only [numVal, if_neg hc]; rfl
    rw [this, k1, k2]
    simp only [Option.map_some]
    congr 2; omega

mutual
/-- `s` is a text of the document `j` (whitespace between the tokens as wanted) -/
inductive Txt : J → List Char → Prop
  | null : Txt .null ['n', 'u', 'l', 'l']
  | tt : Txt (.bool true) ['t', 'r', 'u', 'e']
  | ff : Txt (.bool false) ['f', 'a', 'l', 's', 'e']
  | inf : Txt .inf ['I', 'n', 'f', 'i', 'n', 'i', 't', 'y']
  | ninf : Txt .ninf ['-', 'I', 'n', 'f', 'i', 'n', 'i', 't', 'y']
  | nan : Txt .nan ['N', 'a', 'N']
  | num {t j} (h : numVal t = some j) : Txt j t
  | str (a s) : Txt (.str s) (strLit a s)
  | arr0 : Txt (.arr []) ['[', ']']
  | arr {l s} (h : Elems l s) : Txt (.arr l) ('[' :: (s ++ [']']))
  | obj0 : Txt (.obj []) ['{', '}']
  | obj {l s} (h : Mems l s) : Txt (.obj l) ('{' :: (s ++ ['}']))
inductive Elems : List J → List Char → Prop
  | one {j w s w'} (hw : ws w) (h : Txt j s) (hw' : ws w') : Elems [j] (w ++ (s ++ w'))
  | cons {j w s w' l s'} (hw : ws w) (h : Txt j s) (hw' : ws w') (hl : Elems l s') : Elems (j :: l) (w ++ (s ++ (w' ++ ',' :: s')))
inductive Mems : List (List Char × J) → List Char → Prop
  | one {a k j w w1 s w'} (hw : ws w) (hw1 : ws w1) (h : Txt j s) (hw' : ws w') : Mems [(k, j)] (w ++ (strLit a k ++ ':' :: (w1 ++ (s ++ w'))))
  | cons {a k j w w1 s w' l s'} (hw : ws w) (hw1 : ws w1) (h : Txt j s) (hw' : ws w') (hl : Mems l s') :
      Mems ((k, j) :: l) (w ++ (strLit a k ++ ':' :: (w1 ++ (s ++ (w' ++ ',' :: s')))))
end

/-- the first character of a text -/
theorem Txt.head {j s} (h : Txt j s) : ∃ c r, s = c :: r ∧ isWs c = false ∧ c ≠ ']' ∧ c ≠ '}' := by
  cases h with
  | null => exact ⟨_, _, rfl, by decide, by decide, by decide⟩
  | tt => exact ⟨_, _, rfl, by decide, by decide, by decide⟩
  | ff => exact ⟨_, _, rfl, by decide, by decide, by decide⟩
  | inf => exact ⟨_, _, rfl, by decide, by decide, by decide⟩
  | ninf => exact ⟨_, _, rfl, by decide, by decide, by decide⟩
  | nan => exact ⟨_, _, rfl, by decide, by decide, by decide⟩
  | num h =>
    obtain ⟨-, c, r, rfl, h2⟩ := numVal_all h
    rcases h2 with h2 | ⟨rfl, -⟩
    · have := digit_facts h2; exact ⟨c, r, rfl, by simp [this], by simp [this], by simp [this]⟩
    · exact ⟨_, _, rfl, by decide, by decide, by decide⟩
  | str a s => exact ⟨_, _, rfl, by decide, by decide, by decide⟩
  | arr0 => exact ⟨_, _, rfl, by decide, by decide, by decide⟩
  | arr h => exact ⟨_, _, rfl, by decide, by decide, by decide⟩
  | obj0 => exact ⟨_, _, rfl, by decide, by decide, by decide⟩
  | obj h => exact ⟨_, _, rfl, by decide, by decide, by decide⟩

theorem stops_ws {w r : List Char} (hw : ws w) (hr : stops r) : stops (w ++ r) := by
  cases w with
  | nil => exact hr
  | cons c w =>
    intro d hd
    simp at hd; subst hd
    have := hw c (by simp)
    simp only [isWs, Bool.or_eq_true, beq_iff_eq] at this
    rcases this with ((rfl | rfl) | rfl) | rfl <;> decide

theorem kw_append (w : List Char) (j : J) (r : List Char) : kw w j (w ++ r) = some (j, r) := by
  have : w.isPrefixOf (w ++ r) = true := by rw [List.isPrefixOf_iff_prefix]; exact List.prefix_append _ _
  simp [kw, this]

theorem Elems.skip {l s} (h : Elems l s) : ∃ c r, (∀ r', skipWs (s ++ r') = c :: (r ++ r')) ∧ c ≠ ']' ∧ Elems l (c :: r) ∧ (c :: r).length ≤ s.length := by
  cases h with
  | one hw h hw' =>
    obtain ⟨c, r, rfl, h1, h2, -⟩ := h.head
    refine ⟨c, r ++ _, fun r' => ?_, h2, Elems.one (w := []) (by simp [ws]) h hw', by simp⟩
    simp only [List.append_assoc]
    rw [skipWs_append hw, List.cons_append, skipWs_cons h1]
  | cons hw h hw' hl =>
    obtain ⟨c, r, rfl, h1, h2, -⟩ := h.head
    refine ⟨c, r ++ _, fun r' => ?_, h2, Elems.cons (w := []) (by simp [ws]) h hw' hl, by simp⟩
    simp only [List.append_assoc]
    rw [skipWs_append hw, List.cons_append, skipWs_cons h1]

theorem Mems.skip {l s} (h : Mems l s) : ∃ c r, (∀ r', skipWs (s ++ r') = c :: (r ++ r')) ∧ c ≠ '}' ∧ Mems l (c :: r) ∧ (c :: r).length ≤ s.length := by
  cases h with
  | @one a k j w w1 s w' hw hw1 h hw' =>
    refine ⟨'"', _, fun r' => ?_, by decide, Mems.one (a := a) (w := []) (by simp [ws]) hw1 h hw', by simp [strLit]⟩
    rw [List.append_assoc, skipWs_append hw, List.append_assoc]
    simp only [strLit, List.cons_append, skipWs_cons (c := '"') (by decide), List.append_assoc, List.append_eq]
  | @cons a k j w w1 s w' l s' hw hw1 h hw' hl =>
    refine ⟨'"', _, fun r' => ?_, by decide, Mems.cons (a := a) (w := []) (by simp [ws]) hw1 h hw' hl, by simp [strLit]⟩
    rw [List.append_assoc, skipWs_append hw, List.append_assoc]
    simp only [strLit, List.cons_append, skipWs_cons (c := '"') (by decide), List.append_assoc, List.append_eq]

theorem parseVal_ws (n : Nat) {w s : List Char} (hw : ws w) : parseVal n (w ++ s) = parseVal n s := by
  cases n with
  | zero => simp [parseVal]
  | succ n => simp only [parseVal, skipWs_append hw]

theorem stops_comma (r : List Char) : stops (',' :: r) := by intro c hc; simp at hc; subst hc; decide
theorem stops_close (r : List Char) : stops (']' :: r) := by intro c hc; simp at hc; subst hc; decide
theorem stops_brace (r : List Char) : stops ('}' :: r) := by intro c hc; simp at hc; subst hc; decide

theorem strLit_parse (a : Bool) (k r : List Char) : strBody ((k.flatMap (escChar a) ++ '"' :: r).length + 1) (k.flatMap (escChar a) ++ '"' :: r) = some (k, r) := by
  apply strBody_lit
  have := flatMap_len a k
  simp only [List.length_append, List.length_cons]; omega

mutual
theorem Txt.parse {j s} (h : Txt j s) : ∀ (n : Nat) (r : List Char), s.length ≤ n → stops r → parseVal n (s ++ r) = some (j, r) := by
  intro n r hn hr
  obtain ⟨c0, r0, e0, -⟩ := h.head
  cases n with
  | zero => rw [e0] at hn; simp at hn
  | succ n =>
    match h with
    | .null => exact kw_append ['n', 'u', 'l', 'l'] _ r
    | .tt => exact kw_append ['t', 'r', 'u', 'e'] _ r
    | .ff => exact kw_append ['f', 'a', 'l', 's', 'e'] _ r
    | .inf => exact kw_append ['I', 'n', 'f', 'i', 'n', 'i', 't', 'y'] _ r
    | .ninf => exact kw_append ['-', 'I', 'n', 'f', 'i', 'n', 'i', 't', 'y'] _ r
    | .nan => exact kw_append ['N', 'a', 'N'] _ r
    | .num hv =>
      have hp := parseScalar_num hv hr
      obtain ⟨-, c, t, rfl, h2⟩ := numVal_all hv
      have hc : isWs c = false ∧ c ≠ '[' ∧ c ≠ '{' ∧ c ≠ '"' := by
        rcases h2 with h2 | ⟨rfl, -⟩
        · have := digit_facts h2; simp [this]
        · decide
      simp only [List.cons_append, parseVal, skipWs_cons hc.1, if_neg hc.2.1, if_neg hc.2.2.1, if_neg hc.2.2.2]
      exact hp
    | .str a k =>
      have : strLit a k ++ r = '"' :: (k.flatMap (escChar a) ++ '"' :: r) := by simp [strLit]
      rw [this]
      simp only [parseVal, skipWs_cons (c := '"') (by decide), strLit_parse a k r]
      rfl
    | .arr0 => rfl
    | .obj0 => rfl
    | .arr (l := l) (s := s) he =>
      obtain ⟨c, r1, h1, h2, h3, h4⟩ := he.skip
      have key := Elems.parse h3 n r (by simp only [List.length_cons, List.length_append, List.length_nil] at hn h4 ⊢; omega)
      have e : ('[' :: (s ++ [']']) ++ r) = '[' :: (s ++ ']' :: r) := by simp
      rw [e]
      simp only [parseVal, skipWs_cons (c := '[') (by decide), if_true, h1, if_neg h2]
      simp only [List.cons_append] at key
      rw [key]; rfl
    | .obj (l := l) (s := s) he =>
      obtain ⟨c, r1, h1, h2, h3, h4⟩ := he.skip
      have key := Mems.parse h3 n r (by simp only [List.length_cons, List.length_append, List.length_nil] at hn h4 ⊢; omega)
      have e : ('{' :: (s ++ ['}']) ++ r) = '{' :: (s ++ '}' :: r) := by simp
      rw [e]
      have hne : ('{' : Char) ≠ '[' := by decide
      simp only [parseVal, skipWs_cons (c := '{') (by decide), if_true, if_neg hne, h1, if_neg h2]
      simp only [List.cons_append] at key
      rw [key]; rfl
theorem Elems.parse {l s} (h : Elems l s) : ∀ (n : Nat) (r : List Char), s.length < n → parseElems n (s ++ ']' :: r) = some (l, r) := by
  intro n r hn
  cases n with
  | zero => simp at hn
  | succ n =>
    match h with
    | .one (j := j) (w := w) (s := s) (w' := w') hw hj hw' =>
      have key := Txt.parse hj n (w' ++ ']' :: r) (by simp at hn; omega) (stops_ws hw' (stops_close r))
      have e : (w ++ (s ++ w')) ++ ']' :: r = w ++ (s ++ (w' ++ ']' :: r)) := by simp
      rw [e]
      simp only [parseElems, parseVal_ws n hw, key, skipWs_append hw', skipWs_cons (c := ']') (s := r) (by decide)]
      rfl
    | .cons (j := j) (w := w) (s := s) (w' := w') (l := l) (s' := s') hw hj hw' hl =>
      have key := Txt.parse hj n (w' ++ ',' :: (s' ++ ']' :: r)) (by simp at hn; omega) (stops_ws hw' (stops_comma _))
      have key2 := Elems.parse hl n r (by simp at hn; omega)
      have e : (w ++ (s ++ (w' ++ ',' :: s'))) ++ ']' :: r = w ++ (s ++ (w' ++ ',' :: (s' ++ ']' :: r))) := by simp
      rw [e]
      simp only [parseElems, parseVal_ws n hw, key, skipWs_append hw', skipWs_cons (c := ',') (s := s' ++ ']' :: r) (by decide), if_true, key2]
      rfl
theorem Mems.parse {l s} (h : Mems l s) : ∀ (n : Nat) (r : List Char), s.length < n → parseMems n (s ++ '}' :: r) = some (l, r) := by
  intro n r hn
  cases n with
  | zero => simp at hn
  | succ n =>
    match h with
    | .one (a := a) (k := k) (j := j) (w := w) (w1 := w1) (s := s) (w' := w') hw hw1 hj hw' =>
      have key := Txt.parse hj n (w' ++ '}' :: r) (by simp [strLit] at hn; omega) (stops_ws hw' (stops_brace r))
      have e : (w ++ (strLit a k ++ ':' :: (w1 ++ (s ++ w')))) ++ '}' :: r = w ++ '"' :: (k.flatMap (escChar a) ++ '"' :: (':' :: (w1 ++ (s ++ (w' ++ '}' :: r))))) := by simp [strLit]
      rw [e]
      simp only [parseMems, skipWs_append hw, skipWs_cons (c := '"') (by decide), if_true, strLit_parse, skipWs_cons (c := ':') (by decide), parseVal_ws n hw1, key, skipWs_append hw',
        skipWs_cons (c := '}') (s := r) (by decide)]
      rfl
    | .cons (a := a) (k := k) (j := j) (w := w) (w1 := w1) (s := s) (w' := w') (l := l) (s' := s') hw hw1 hj hw' hl =>
      have key := Txt.parse hj n (w' ++ ',' :: (s' ++ '}' :: r)) (by simp [strLit] at hn; omega) (stops_ws hw' (stops_comma _))
      have key2 := Mems.parse hl n r (by simp at hn; omega)
      have e : (w ++ (strLit a k ++ ':' :: (w1 ++ (s ++ (w' ++ ',' :: s'))))) ++ '}' :: r =
        w ++ '"' :: (k.flatMap (escChar a) ++ '"' :: (':' :: (w1 ++ (s ++ (w' ++ ',' :: (s' ++ '}' :: r)))))) := by simp [strLit]
      rw [e]
      simp only [parseMems, skipWs_append hw, skipWs_cons (c := '"') (by decide), if_true, strLit_parse, skipWs_cons (c := ':') (by decide), parseVal_ws n hw1, key, skipWs_append hw',
        skipWs_cons (c := ',') (s := s' ++ '}' :: r) (by decide), key2]
      rfl
end

/-- `JSON.loads` reads every text of a document -/
theorem loads_txt {s w w' : List Char} {j : J} (h : Txt j s) (hw : ws w) (hw' : ws w') : loads (w ++ (s ++ w')) = some j := by
  have hs : stops w' := by have := stops_ws (r := []) hw' (by simp [stops]); simpa using this
  have := Txt.parse h ((w ++ (s ++ w')).length + 1) w' (by simp; omega) hs
  simp only [loads, parseVal_ws _ hw, this, skipWs_ws hw', if_true]

/-! ### the printer -/

mutual
/-- documents that can be printed: floats carry a float literal -/
def J.ok : J → Prop
  | .flt t => numVal t = some (.flt t)
  | .arr l => J.okL l
  | .obj l => J.okM l
  | _ => True
def J.okL : List J → Prop
  | [] => True
  | x :: xs => J.ok x ∧ J.okL xs
def J.okM : List (List Char × J) → Prop
  | [] => True
  | (_, v) :: ms => J.ok v ∧ J.okM ms
end

theorem colon_eq (st : Style) : ∃ w, ws w ∧ st.colon = ':' :: w := by
  unfold Style.colon
  split
  · exact ⟨[' '], by simp [ws, isWs], rfl⟩
  · exact ⟨[], by simp [ws], rfl⟩

mutual
theorem pr_txt (st : Style) : ∀ (j : J) (k : Nat), j.ok → Txt j (pr st k j)
  | .null, _, _ => by simp only [pr]; exact .null
  | .bool true, _, _ => by simp only [pr]; exact .tt
  | .bool false, _, _ => by simp only [pr]; exact .ff
  | .int z, _, _ => by simp only [pr]; exact .num (numVal_int z)
  | .flt t, _, h => by simp only [pr]; exact .num (by simpa [J.ok] using h)
  | .inf, _, _ => by simp only [pr]; exact .inf
  | .ninf, _, _ => by simp only [pr]; exact .ninf
  | .nan, _, _ => by simp only [pr]; exact .nan
  | .str s, _, _ => by simp only [pr]; exact .str _ s
  | .arr [], _, _ => by simp only [pr]; exact .arr0
  | .arr (x :: xs), k, h => by
    simp only [J.ok, J.okL] at h
    have := prTail_txt st xs x (k + 1) (k + 1) k h.1 h.2
    simp only [pr]
    have := Txt.arr this
    simpa using this
  | .obj [], _, _ => by simp only [pr]; exact .obj0
  | .obj ((n, v) :: ms), k, h => by
    simp only [J.ok, J.okM] at h
    have := prMems_txt st ms n v (k + 1) (k + 1) k h.1 h.2
    simp only [pr]
    have := Txt.obj this
    simpa using this
termination_by j => sizeOf j
theorem prTail_txt (st : Style) : ∀ (xs : List J) (x : J) (m k k' : Nat), x.ok → J.okL xs → Elems (x :: xs) (st.nl m ++ (pr st k x ++ (prTail st k xs ++ st.nl k')))
  | [], x, m, k, k', hx, _ => by
    simp only [prTail, List.nil_append]
    exact .one (nl_ws st m) (pr_txt st x k hx) (nl_ws st k')
  | y :: ys, x, m, k, k', hx, hys => by
    simp only [J.okL] at hys
    have ih := prTail_txt st ys y k k k' hys.1 hys.2
    simp only [prTail, List.cons_append, List.append_assoc]
    exact .cons (w' := []) (nl_ws st m) (pr_txt st x k hx) (by simp [ws]) ih
termination_by xs x => sizeOf xs + sizeOf x
theorem prMems_txt (st : Style) : ∀ (ms : List (List Char × J)) (n : List Char) (v : J) (m k k' : Nat), v.ok → J.okM ms →
    Mems ((n, v) :: ms) (st.nl m ++ (strLit st.ascii n ++ (st.colon ++ (pr st k v ++ (prMems st k ms ++ st.nl k')))))
  | [], n, v, m, k, k', hx, _ => by
    obtain ⟨w, hw, e⟩ := colon_eq st
    simp only [prMems, List.nil_append, e, List.cons_append]
    exact .one (nl_ws st m) hw (pr_txt st v k hx) (nl_ws st k')
  | (n', v') :: ms, n, v, m, k, k', hx, hms => by
    simp only [J.okM] at hms
    have ih := prMems_txt st ms n' v' k k k' hms.1 hms.2
    obtain ⟨w, hw, e⟩ := colon_eq st
    simp only [prMems, List.cons_append, List.append_assoc, e] at ih ⊢
    exact .cons (w' := []) (nl_ws st m) hw (pr_txt st v k hx) (by simp [ws]) ih
termination_by ms _ v => sizeOf ms + sizeOf v
end

/-- `JSON.loads(JSON.dumps(j)) = j` -/
theorem loads_dumps (st : Style) (j : J) (h : j.ok) : loads (dumps st j) = some j := by
  have := loads_txt (pr_txt st j 0 h) (w := []) (w' := []) (by simp [ws]) (by simp [ws])
  simpa [dumps] using this

end Json
