import Verif.Model.CombStr
import Verif.Props.MathOps
/-
C52: the string form of combinations.
-/
namespace MSets

/-- a text without blanks, of at least two characters -/
def Solid (t : List Char) : Prop := 2 ≤ t.length ∧ ∀ c ∈ t, c ≠ ' '

theorem splitWord_cons (m a : Char) (s : List Char) (h : a ≠ ' ') : splitWord m (a :: s) = pushHead a (splitWord m s) := by
  cases s with
  | nil => rfl
  | cons b s => cases s with
    | nil => rfl
    | cons c r => simp [splitWord, h]

theorem splitWord_solid (m : Char) (t : List Char) (h : ∀ c ∈ t, c ≠ ' ') : splitWord m t = [t] := by
  induction t with
  | nil => rfl
  | cons a t ih => rw [splitWord_cons m a t (h a (by simp)), ih fun c hc => h c (by simp [hc])]; rfl

theorem splitWord_hit (m : Char) (t r : List Char) (h : ∀ c ∈ t, c ≠ ' ') : splitWord m (t ++ ' ' :: m :: ' ' :: r) = t :: splitWord m r := by
  induction t with
  | nil => simp [splitWord]
  | cons a t ih => rw [List.cons_append, splitWord_cons m a _ (h a (by simp)), ih fun c hc => h c (by simp [hc])]; rfl

theorem splitWord_join (m : Char) : ∀ l : List (List Char), l ≠ [] → (∀ t ∈ l, Solid t) → splitWord m (joinWord m l) = l := by
  intro l
  induction l with
  | nil => intro h; exact absurd rfl h
  | cons t r ih =>
    intro _ h
    cases r with
    | nil => exact splitWord_solid m t (h t (by simp)).2
    | cons u v =>
      show splitWord m (t ++ ' ' :: m :: ' ' :: joinWord m (u :: v)) = _
      rw [splitWord_hit m t _ (h t (by simp)).2, ih (by simp) fun x hx => h x (by simp [hx])]

theorem splitWord_other (m k : Char) (hm : m ≠ ' ') (hk : k ≠ ' ') (hmk : k ≠ m) : ∀ l : List (List Char), l ≠ [] → (∀ t ∈ l, Solid t) → splitWord m (joinWord k l) = [joinWord k l] := by
  intro l
  induction l with
  | nil => intro h; exact absurd rfl h
  | cons t r ih =>
    intro _ h
    cases r with
    | nil => exact splitWord_solid m t (h t (by simp)).2
    | cons u v =>
      have hr := ih (by simp) fun x hx => h x (by simp [hx])
      show splitWord m (t ++ ' ' :: k :: ' ' :: joinWord k (u :: v)) = [t ++ ' ' :: k :: ' ' :: joinWord k (u :: v)]
      obtain ⟨hu, hu'⟩ := h u (by simp)
      have hj : ∃ a b s, joinWord k (u :: v) = a :: b :: s ∧ b ≠ ' ' := by
        cases u with
        | nil => simp at hu
        | cons a u => cases u with
          | nil => simp at hu
          | cons b u =>
            cases v with
            | nil => exact ⟨a, b, u, rfl, hu' b (by simp)⟩
            | cons v w => exact ⟨a, b, _, rfl, hu' b (by simp)⟩
      obtain ⟨a, b, s, e, hb⟩ := hj
      have base : splitWord m (' ' :: k :: ' ' :: joinWord k (u :: v)) = [' ' :: k :: ' ' :: joinWord k (u :: v)] := by
        have h3 : splitWord m (' ' :: joinWord k (u :: v)) = [' ' :: joinWord k (u :: v)] := by
          rw [e] at hr ⊢
          simp only [splitWord]
          rw [if_neg (by tauto), hr]; rfl
        have h2 : splitWord m (k :: ' ' :: joinWord k (u :: v)) = [k :: ' ' :: joinWord k (u :: v)] := by
          rw [splitWord_cons m k _ hk, h3]; rfl
        rw [splitWord.eq_1, if_neg (by tauto), h2]; rfl
      have ht := (h t (by simp)).2
      clear hr e h ih
      induction t with
      | nil => exact base
      | cons c t ih => rw [List.cons_append, splitWord_cons m c _ (ht c (by simp)), ih (by simp) fun x hx => ht x (by simp [hx])]; rfl

theorem strip_solid (s : List Char) (h : s.head? ≠ some ' ') (h' : s.getLast? ≠ some ' ') : strip s = s := by
  unfold strip
  cases s with
  | nil => rfl
  | cons c s =>
    have hc : c ≠ ' ' := by simpa using h
    rw [List.dropWhile_cons_of_neg (by simpa using hc)]
    cases hr : (c :: s).reverse with
    | nil => simp at hr
    | cons d r =>
      have hd : d ≠ ' ' := by
        rw [← List.head?_reverse, hr] at h'
        simpa using h'
      rw [List.dropWhile_cons_of_neg (by simpa using hd), ← hr, List.reverse_reverse]

theorem joinWord_head (m : Char) (l : List (List Char)) (t : List Char) (ht : Solid t) : (joinWord m (t :: l)).head? = t.head? := by
  obtain ⟨h, _⟩ := ht
  cases t with
  | nil => simp at h
  | cons c t => cases l <;> rfl

theorem joinWord_last (m : Char) : ∀ (l : List (List Char)) (hl : l ≠ []), (∀ t ∈ l, Solid t) → (joinWord m l).getLast? = (l.getLast hl).getLast? := by
  intro l
  induction l with
  | nil => intro h; exact absurd rfl h
  | cons t r ih =>
    intro _ h
    cases r with
    | nil => rfl
    | cons u v =>
      have := ih (by simp) fun x hx => h x (by simp [hx])
      show (t ++ ' ' :: m :: ' ' :: joinWord m (u :: v)).getLast? = _
      rw [List.getLast_cons (by simp), ← this]
      have hne : joinWord m (u :: v) ≠ [] := by
        have h2 := (h u (by simp)).1
        cases u with
        | nil => simp at h2
        | cons c u => cases v <;> simp [joinWord]
      rw [show t ++ ' ' :: m :: ' ' :: joinWord m (u :: v) = (t ++ [' ', m, ' ']) ++ joinWord m (u :: v) by simp, List.getLast?_append_of_ne_nil _ hne]

/-- the members treated: intervals and rosters with integer (≠ 0), infinite or variable limits and items -/
inductive Plain : MSet → Prop
  | interval {a b : Item} (int compl : Bool) : printable a.val → printable b.val → Plain (.interval (mkInterval a b int compl))
  | roster {l : List Item} (compl : Bool) : (∀ i ∈ l, printable i.val) → Plain (mkRoster l compl)

/-- not a complement and, for an interval, with closed lower limit: the text starts with `[` or `{` -/
def opensPlain : MSet → Prop
  | .interval i => i.compl = false ∧ i.lower.compl = false
  | .roster _ c => c = false
  | _ => False

theorem strip_noblank (s : List Char) (h : ∀ c ∈ s, c ≠ ' ') : strip s = s := by
  refine strip_solid s ?_ ?_
  · intro e; exact h ' ' (List.mem_of_mem_head? e) rfl
  · intro e; exact h ' ' (List.mem_of_mem_getLast? e) rfl

theorem plain_text {m : MSet} (h : Plain m) : ∃ t, m.repr = some t ∧ Solid t ∧ t.getLast? ≠ some '\'' ∧ (opensPlain m → t.head? ≠ some '!' ∧ t.head? ≠ some '(') ∧
    ∀ n ws, parseMembers n (t :: ws) = (parseMembers n ws).map (m :: ·) := by
  cases h with
  | @interval a b int compl ha hb =>
    obtain ⟨t, ht, hread⟩ := C52_repr_round_trip_partial a b int compl ha hb
    obtain ⟨hlo, hup⟩ := printable_swap ha hb int compl
    generalize mkInterval a b int compl = I at *
    obtain ⟨lo, elo, nlo, clo⟩ := limStr_clean hlo
    obtain ⟨hi, ehi, nhi, chi⟩ := limStr_clean hup
    have ht' := ht
    simp only [Interval.repr, elo, ehi, Option.some.injEq] at ht'
    have hlo' : ∀ c ∈ lo, c ≠ ' ' := fun c hc => (clean_ne (List.all_eq_true.1 clo c hc)).2.2.1
    have hhi' : ∀ c ∈ hi, c ≠ ' ' := fun c hc => (clean_ne (List.all_eq_true.1 chi c hc)).2.2.1
    have hsolid : ∀ c ∈ t, c ≠ ' ' := by
      intro c hc
      rw [← ht'] at hc
      simp only [List.mem_append, List.mem_cons, List.not_mem_nil, or_false] at hc
      rcases hc with hc | hc | ((hc | hc) | hc) | hc
      · split at hc <;> simp at hc; subst hc; decide
      · split at hc <;> subst hc <;> decide
      · exact hlo' c hc
      · split at hc <;> simp at hc <;> subst hc <;> decide
      · exact hhi' c hc
      · split at hc <;> subst hc <;> decide
    have hhead : t.head? = some (if I.compl then '!' else if I.lower.compl then '(' else '[') := by
      rw [← ht']; cases I.compl <;> rfl
    have hlast : t.getLast? = some (if I.upper.compl then ')' else ']') := by
      rw [← ht']
      have : ∀ (p : List Char) (q : List Char) (x : Char), (p ++ (if I.lower.compl then '(' else '[') :: (q ++ [x])).getLast? = some x := by
        intro p q x; rw [← List.cons_append, ← List.append_assoc, List.getLast?_append]; rfl
      exact this _ _ _
    refine ⟨t, ht, ⟨?_, hsolid⟩, ?_, ?_, ?_⟩
    · rw [← ht']; simp only [List.length_append, List.length_cons, List.length_nil]; omega
    · rw [hlast]; split <;> decide
    · rintro ⟨h1, h2⟩
      rw [hhead, h1, h2]; decide
    · intro n ws
      have hiv : ivOfText t = .ok I := by
        unfold ivOfText
        rw [strip_noblank t hsolid]
        cases t with
        | nil => simp at hhead
        | cons c t =>
          simp only [List.head?_cons, Option.some.injEq] at hhead
          have : c = '[' ∨ c = '(' ∨ c = '!' := by rw [hhead]; cases I.compl <;> cases I.lower.compl <;> simp
          simp only [if_pos this, hread]
      simp only [parseMembers, hiv]
      cases parseMembers n ws <;> rfl
  | @roster l compl hl =>
    obtain ⟨t, ht, hread⟩ := C52_roster_round_trip_partial l compl hl
    have hp : ∀ v ∈ rosterItems l, printable v := by intro v hv; obtain ⟨i, hi, rfl⟩ := rosterItems_sub l v hv; exact hl i hi
    obtain ⟨ls, e1, _, e3, e4⟩ := limStr_mapM hp
    have ht' := ht
    simp only [rosterRepr, e1, Option.some.injEq] at ht'
    have hch : ∀ w ∈ ls, ∀ c ∈ w, clean c = true := fun w hw c hc => List.all_eq_true.1 (e3 w hw).2 c hc
    have hsp : ∀ c ∈ commaSep ls, c ≠ ' ' := commaSep_chars (P := fun c => c ≠ ' ') (by decide) fun w hw c hc => (clean_ne (hch w hw c hc)).2.2.1
    have hsolid : ∀ c ∈ t, c ≠ ' ' := by
      intro c hc
      rw [← ht'] at hc
      simp only [List.mem_append] at hc
      rcases hc with (hc | hc) | hc
      · split at hc <;> simp at hc
        · rcases hc with rfl | rfl <;> decide
        · subst hc; decide
      · exact hsp c hc
      · simp at hc; subst hc; decide
    refine ⟨t, ht, ⟨?_, hsolid⟩, ?_, ?_, ?_⟩
    · rw [← ht']; cases compl <;> simp
    · rw [← ht', List.getLast?_append]; simp
    · intro h
      have : compl = false := h
      rw [← ht', this]; simp
    · intro n ws
      have hiv : ivOfText t = .error .type := by
        unfold ivOfText
        rw [strip_noblank t hsolid]
        rw [← ht']
        cases compl
        · rfl
        · have h2 : ∀ c ∈ '{' :: (commaSep ls ++ ['}']), c ≠ ' ' := by
            intro c hc; refine hsolid c ?_; rw [← ht']; simp only [if_true, List.cons_append, List.nil_append]; exact List.mem_cons_of_mem _ hc
          have h1 : ∀ c ∈ '!' :: '{' :: (commaSep ls ++ ['}']), c ≠ ' ' := by
            intro c hc; refine hsolid c ?_; rw [← ht']; exact hc
          show (if _ then ofString ('!' :: '{' :: (commaSep ls ++ ['}'])) else _) = _
          rw [if_pos (by simp)]
          unfold ofString
          rw [strip_noblank _ h1]
          simp only [strip_noblank _ h2]
          rfl
      simp only [parseMembers, hiv, hread]
      cases parseMembers n ws <;> rfl

theorem plain_texts : ∀ {l : List MSet}, (∀ m ∈ l, Plain m) → ∃ ts, MSet.reprs l = some ts ∧ ts.length = l.length ∧ (∀ t ∈ ts, Solid t ∧ t.getLast? ≠ some '\'') ∧ ∀ n, parseMembers n ts = .ok l := by
  intro l
  induction l with
  | nil => intro _; exact ⟨[], rfl, rfl, by simp, fun n => by simp [parseMembers]⟩
  | cons m l ih =>
    intro h
    obtain ⟨ts, h1, h2, h3, h4⟩ := ih fun x hx => h x (by simp [hx])
    obtain ⟨t, g1, g2, g3, _, g5⟩ := plain_text (h m (by simp))
    refine ⟨t :: ts, by simp [MSet.reprs, g1, h1], by simp [h2], ?_, fun n => by rw [g5, h4]; rfl⟩
    intro x hx
    rcases List.mem_cons.1 hx with rfl | hx
    · exact ⟨g2, g3⟩
    · exact h3 x hx

/-- the text of a combination whose first member opens plainly -/
theorem comb_text (a b : MSet) (r : List MSet) (union : Bool) (h : ∀ m ∈ a :: b :: r, Plain m) (ha : opensPlain a) :
    ∃ ts, MSet.reprs (a :: b :: r) = some ts ∧ ∃ c cs, joinWord (if union then 'u' else 'n') ts = c :: cs ∧ c ≠ '!' ∧ c ≠ '(' ∧ c ≠ ' ' ∧ (c :: cs).getLast? ≠ some '\'' ∧ (c :: cs).getLast? ≠ some ' ' ∧
      ∀ n compl, parseRest n (c :: cs) compl = .ok (a :: b :: r, union, compl) := by
  obtain ⟨ts, h1, h2, h3, h4⟩ := plain_texts h
  obtain ⟨t, g1, g2, g3, g4, g5⟩ := plain_text (h a (by simp))
  obtain ⟨g4, g4'⟩ := g4 ha
  have hts : ∃ u w, ts = t :: u :: w := by
    simp only [MSet.reprs, g1] at h1
    cases hb : b.repr with
    | none => simp [hb] at h1
    | some u => cases hr : MSet.reprs r with
      | none => simp [hb, hr] at h1
      | some w => simp only [hb, hr, Option.some.injEq] at h1; exact ⟨u, w, h1.symm⟩
  obtain ⟨u, w, hts⟩ := hts
  have hne : ts ≠ [] := by rw [hts]; simp
  have hsol : ∀ t ∈ ts, Solid t := fun t ht => (h3 t ht).1
  have hm : ∀ (m k : Char), m ≠ ' ' → k ≠ ' ' → k ≠ m → splitWord k (joinWord k ts) = ts ∧ splitWord m (joinWord k ts) = [joinWord k ts] :=
    fun m k hm hk hmk => ⟨splitWord_join k ts hne hsol, splitWord_other m k hm hk hmk ts hne hsol⟩
  have hlen : 1 < ts.length := by rw [hts]; simp
  have hrest : ∀ n c, parseRest n (joinWord (if union then 'u' else 'n') ts) c = .ok (a :: b :: r, union, c) := by
    intro n c
    unfold parseRest
    cases union
    · obtain ⟨e1, e2⟩ := hm 'u' 'n' (by decide) (by decide) (by decide)
      simp only [Bool.false_eq_true, if_false, e1, e2, h4]
      simp [hlen, Except.map]
    · obtain ⟨e1, e2⟩ := hm 'n' 'u' (by decide) (by decide) (by decide)
      simp only [if_true, e1, e2, h4]
      simp [hlen, Except.map]
  have hhead : (joinWord (if union then 'u' else 'n') ts).head? = t.head? := by rw [hts]; exact joinWord_head _ _ _ g2
  have hlast : (joinWord (if union then 'u' else 'n') ts).getLast? ≠ some '\'' ∧ (joinWord (if union then 'u' else 'n') ts).getLast? ≠ some ' ' := by
    rw [joinWord_last _ ts hne hsol]
    obtain ⟨k1, k2⟩ := h3 _ (List.getLast_mem hne)
    exact ⟨k2, fun e => k1.2 ' ' (List.mem_of_mem_getLast? e) rfl⟩
  have hthead : t.head? ≠ some ' ' := fun e => g2.2 ' ' (List.mem_of_mem_head? e) rfl
  refine ⟨ts, h1, ?_⟩
  cases hJ : joinWord (if union then 'u' else 'n') ts with
  | nil =>
    rw [hJ] at hhead
    obtain ⟨k, _⟩ := g2
    cases t with
    | nil => simp at k
    | cons c t => simp at hhead
  | cons c cs =>
    rw [hJ] at hhead hlast hrest
    simp only [List.head?_cons] at hhead
    rw [← hhead] at g4 g4' hthead
    exact ⟨c, cs, rfl, by simpa using g4, by simpa using g4', by simpa using hthead, hlast.1, hlast.2, hrest⟩

theorem parseComb_plain {c : Char} {cs : List Char} (h1 : c ≠ '!') (h2 : c ≠ '(') (h3 : c ≠ ' ') (h4 : (c :: cs).getLast? ≠ some '\'') (h5 : (c :: cs).getLast? ≠ some ' ') (n : Nat) (compl : Bool) :
    parseComb (n + 1) (c :: cs) compl = parseRest n (c :: cs) compl := by
  have hs : strip (c :: cs) = c :: cs := strip_solid _ (by simpa using h3) h5
  simp [parseComb, hs, h1, h2, h4]

theorem parseComb_neg {c : Char} {cs : List Char} (h2 : c ≠ '(') (h3 : c ≠ ' ') (h4 : (c :: cs).getLast? ≠ some '\'') (h5 : (c :: cs).getLast? ≠ some ' ') (n : Nat) (compl : Bool) :
    parseComb (n + 1) ('!' :: c :: cs) compl = parseRest n (c :: cs) (!compl) := by
  have hs : strip (c :: cs) = c :: cs := strip_solid _ (by simpa using h3) h5
  have hs' : strip ('!' :: c :: cs) = '!' :: c :: cs := strip_solid _ (by simp) (by rw [List.getLast?_cons_cons]; exact h5)
  simp [parseComb, hs, hs', h2, h4]

theorem parseComb_brackets {J : List Char} (h3 : J.head? ≠ some ' ') (h5 : J.getLast? ≠ some ' ') (n : Nat) (compl : Bool) (r : List MSet × Bool × Bool) (h : parseComb n J (!compl) = .ok r) :
    parseComb (n + 1) ('!' :: '(' :: (J ++ [')'])) compl = .ok r := by
  have e0 : ∀ p : List Char, (p ++ [')']).getLast? = some ')' := by intro p; rw [List.getLast?_append]; simp
  have e1 : strip ('!' :: '(' :: (J ++ [')'])) = '!' :: '(' :: (J ++ [')']) := strip_solid _ (by simp) (by have := e0 ('!' :: '(' :: J); rw [List.cons_append, List.cons_append] at this; rw [this]; simp)
  have e3 : ('(' :: (J ++ [')'])).getLast? = some ')' := by have := e0 ('(' :: J); rwa [List.cons_append] at this
  have e2 : strip ('(' :: (J ++ [')'])) = '(' :: (J ++ [')']) := strip_solid _ (by simp) (by rw [e3]; simp)
  have e4 : strip J = J := strip_solid _ h3 h5
  simp [parseComb, e1, e2, e3, e4, h]

/-- C52: the string form of a combination of two or more intervals and rosters, union or intersection, complement or not, is read back as exactly that combination – if the first member is no complement
and has no open lower limit. -/
theorem C52_combine_round_trip_partial (a b : MSet) (r : List MSet) (union compl : Bool) (h : ∀ m ∈ a :: b :: r, Plain m) (ha : opensPlain a) (depth : Nat) :
    ∃ s, (MSet.combine (a :: b :: r) union compl).repr = some s ∧ combineOfString (depth + 2) s = .ok (.combine (a :: b :: r) union compl) := by
  obtain ⟨ts, h1, c, cs, hJ, k1, k2, k3, k4, k5, hrest⟩ := comb_text a b r union h ha
  cases compl
  · refine ⟨_, by simp only [MSet.repr, h1]; rfl, ?_⟩
    simp only [Bool.false_eq_true, if_false, combineOfString, hJ, parseComb_plain k1 k2 k3 k4 k5, hrest]
  · refine ⟨_, by simp only [MSet.repr, h1]; rfl, ?_⟩
    simp only [if_true, combineOfString, hJ]
    rw [parseComb_brackets (by simpa using k3) k5 (depth + 1) false (a :: b :: r, union, true) (by rw [parseComb_plain k1 k2 k3 k4 k5, hrest]; rfl)]

/-- Disagreement: if the first member is a complement, its `!` is read as the complement of the whole: `![1,2] u [5,9]` comes back as the complement of the union of `[1,2]` and `[5,9]`. -/
theorem C52_combine_wrong (a b : MSet) (r : List MSet) (union : Bool) (h : ∀ m ∈ a :: b :: r, Plain m) (ha : opensPlain a) (hi : ∃ i, a = .interval i) (depth : Nat) :
    ∃ s, (MSet.combine (a.switch :: b :: r) union false).repr = some s ∧ combineOfString (depth + 1) s = .ok (.combine (a :: b :: r) union true) := by
  obtain ⟨ts, h1, c, cs, hJ, k1, k2, k3, k4, k5, hrest⟩ := comb_text a b r union h ha
  obtain ⟨i, rfl⟩ := hi
  have hsw : ∀ t, (MSet.interval i).repr = some t → (MSet.interval i).switch.repr = some ('!' :: t) := by
    intro t ht
    have hc : i.compl = false := ha.1
    simp only [MSet.repr, Interval.repr, MSet.switch, hc] at ht ⊢
    cases e1 : limStr i.lower.val with
    | none => simp [e1] at ht
    | some lo => cases e2 : limStr i.upper.val with
      | none => simp [e1, e2] at ht
      | some hi => simp only [e1, e2, Option.some.injEq, Bool.false_eq_true, if_false, List.nil_append] at ht; rw [← ht]; simp
  have hr : ∃ t w, ts = t :: w ∧ MSet.reprs ((MSet.interval i).switch :: b :: r) = some (('!' :: t) :: w) := by
    rw [MSet.reprs.eq_2] at h1 ⊢
    cases e1 : (MSet.interval i).repr with
    | none => simp [e1] at h1
    | some t => cases e2 : MSet.reprs (b :: r) with
      | none => simp [e1, e2] at h1
      | some w =>
        simp only [e1, e2, Option.some.injEq] at h1
        exact ⟨t, w, h1.symm, by rw [hsw t e1]⟩
  obtain ⟨t, w, rfl, hr⟩ := hr
  have hj : ∀ m, joinWord m (('!' :: t) :: w) = '!' :: joinWord m (t :: w) := by intro m; cases w <;> rfl
  refine ⟨'!' :: c :: cs, by simp only [MSet.repr, hr, hj, hJ]; rfl, ?_⟩
  simp only [combineOfString, parseComb_neg k2 k3 k4 k5, hrest]
  rfl

/-- the same, seen on a member: 7 is in the union of the complement of `[1,2]` and `[5,9]`, but not in what is read back -/
theorem C52_combine_member_wrong :
    (MSet.combine [.interval (mkInterval ⟨.num (.int 1), false⟩ ⟨.num (.int 2), false⟩ false true), .interval (mkInterval ⟨.num (.int 5), false⟩ ⟨.num (.int 9), false⟩ false false)] true false).contains (.num (.int 7)) none = .ok true ∧
    (MSet.combine [.interval (mkInterval ⟨.num (.int 1), false⟩ ⟨.num (.int 2), false⟩ false false), .interval (mkInterval ⟨.num (.int 5), false⟩ ⟨.num (.int 9), false⟩ false false)] true true).contains (.num (.int 7)) none = .ok false := by
  decide +kernel

theorem splitWord_ne (m : Char) (s : List Char) : splitWord m s ≠ [] := by
  unfold splitWord
  split
  · split
    · simp
    · cases splitWord m _ <;> simp [pushHead]
  · simp

theorem pushHead_length {a : Char} {l : List (List Char)} (h : l ≠ []) : (pushHead a l).length = l.length := by
  cases l with
  | nil => exact absurd rfl h
  | cons w ws => rfl

theorem splitWord_skip {m k a b : Char} {t s : List Char} (ht : ∀ c ∈ t, c ≠ ' ') (hk : k ≠ ' ') (hmk : k ≠ m) (hb : b ≠ ' ') :
    (splitWord m (t ++ ' ' :: k :: ' ' :: a :: b :: s)).length = (splitWord m (a :: b :: s)).length := by
  induction t with
  | nil =>
    rw [List.nil_append, splitWord.eq_1, if_neg (by tauto), pushHead_length (splitWord_ne _ _), splitWord_cons _ _ _ hk, pushHead_length (splitWord_ne _ _), splitWord.eq_1, if_neg (by tauto),
      pushHead_length (splitWord_ne _ _)]
  | cons c t ih => rw [List.cons_append, splitWord_cons _ _ _ (ht c (by simp)), pushHead_length (splitWord_ne _ _), ih fun x hx => ht x (by simp [hx])]

/-- Disagreement: a combination inside a combination is printed without brackets: for the union of an intersection and a set the constructor rejects the text (TypeError: two kinds of combination). -/
theorem C52_nested_wrong (a b c : MSet) (h : ∀ m ∈ [a, b, c], Plain m) (ha : opensPlain a) (depth : Nat) :
    ∃ s, (MSet.combine [.combine [a, b] false false, c] true false).repr = some s ∧ combineOfString (depth + 1) s = .error .type := by
  obtain ⟨ta, a1, a2, a3, a4, -⟩ := plain_text (h a (by simp))
  obtain ⟨tb, b1, b2, -, -, -⟩ := plain_text (h b (by simp))
  obtain ⟨tc, c1, c2, c3, -, -⟩ := plain_text (h c (by simp))
  obtain ⟨a4, a5⟩ := a4 ha
  refine ⟨joinWord 'u' [joinWord 'n' [ta, tb], tc], by simp [MSet.repr, MSet.reprs, a1, b1, c1], ?_⟩
  have hW : joinWord 'u' [joinWord 'n' [ta, tb], tc] = ta ++ ' ' :: 'n' :: ' ' :: (tb ++ ' ' :: 'u' :: ' ' :: tc) := by simp [joinWord]
  have hn : 1 < (splitWord 'n' (joinWord 'u' [joinWord 'n' [ta, tb], tc])).length := by
    rw [hW, splitWord_hit _ _ _ a2.2]
    have := splitWord_ne 'n' (tb ++ ' ' :: 'u' :: ' ' :: tc)
    have := List.length_pos_iff.2 this
    simp only [List.length_cons]; omega
  have hu : 1 < (splitWord 'u' (joinWord 'u' [joinWord 'n' [ta, tb], tc])).length := by
    have h2 : 1 < (splitWord 'u' (tb ++ ' ' :: 'u' :: ' ' :: tc)).length := by
      rw [splitWord_hit _ _ _ b2.2]
      have := List.length_pos_iff.2 (splitWord_ne 'u' tc)
      simp only [List.length_cons]; omega
    rw [hW]
    obtain ⟨l, hb⟩ := b2
    cases tb with
    | nil => simp at l
    | cons x tb => cases tb with
      | nil => simp at l
      | cons y tb => rw [List.cons_append, List.cons_append, splitWord_skip a2.2 (by decide) (by decide) (hb y (by simp))]; exact h2
  cases hJ : joinWord 'u' [joinWord 'n' [ta, tb], tc] with
  | nil => rw [hW] at hJ; simp at hJ
  | cons x xs =>
    have hh : ta.head? = some x := by
      rw [hW] at hJ
      obtain ⟨l, -⟩ := a2
      cases ta with
      | nil => simp at l
      | cons y ta => simp at hJ; simp [hJ.1]
    have hl : (x :: xs).getLast? = tc.getLast? := by
      rw [← hJ, hW]
      obtain ⟨l, -⟩ := c2
      rw [show ta ++ ' ' :: 'n' :: ' ' :: (tb ++ ' ' :: 'u' :: ' ' :: tc) = (ta ++ ' ' :: 'n' :: ' ' :: (tb ++ [' ', 'u', ' '])) ++ tc by simp, List.getLast?_append_of_ne_nil _ (by rintro rfl; simp at l)]
    rw [hh] at a4 a5
    rw [hJ] at hn hu
    rw [combineOfString, parseComb_plain (by simpa using a4) (by simpa using a5) (a2.2 x (List.mem_of_mem_head? hh)) (by rw [hl]; exact c3)
      (by rw [hl]; intro e; exact c2.2 ' ' (List.mem_of_mem_getLast? e) rfl)]
    unfold parseRest
    simp only [hn, hu, gt_iff_lt, and_self, if_true]

example : Plain (.interval (mkInterval ⟨.num (.int 1), false⟩ ⟨.num (.int 2), false⟩ false false)) ∧ opensPlain (.interval (mkInterval ⟨.num (.int 1), false⟩ ⟨.num (.int 2), false⟩ false false)) :=
  ⟨.interval _ _ (by simp [printable]) (by simp [printable]), ⟨rfl, rfl⟩⟩
example : Plain (mkRoster [⟨.num (.int 3), false⟩] true) := .roster _ (by simp [printable])

end MSets
