import Verif.Spec.Repr
import Verif.Proofs.Serialize
/-
Helper lemmas: reading what `repr` printed; rebuilding nested constructor calls.
-/
namespace ITree

theorem dropPre_iff (p s r : List Char) : dropPre p s = some r ↔ s = p ++ r := by
  induction p generalizing s with
  | nil => simp [dropPre]
  | cons c p ih =>
    cases s with
    | nil => simp [dropPre]
    | cons d s =>
      simp only [dropPre]
      split
      · next e => subst e; simp [ih]
      · next e => simp; intro h; exact absurd h.symm e

theorem dropPre_none {p s : List Char} (h : ¬ p <+: s) : dropPre p s = none := by
  cases e : dropPre p s with
  | none => rfl
  | some r => exact absurd ⟨r, ((dropPre_iff p s r).1 e).symm⟩ h

theorem dropPre_self (p r : List Char) : dropPre p (p ++ r) = some r := (dropPre_iff _ _ _).2 rfl

variable {L : Literals} {okTag : Tag → Prop} {okVal : Val → Prop} {okLink : Option String → List Tag → Prop}

theorem readTag_back (E : L.Evaluable okTag okVal okLink) {t : Tag} (ht : okTag t) {c : Char} (hc : c = ',' ∨ c = ')') (r : List Char) : readTag L (L.tagRepr t ++ c :: r) = (argEnd (c :: r)).map fun s => (t, s) := by
  have P := E.tag_plain t ht
  unfold readTag
  rw [dropPre_none (P _ (by simp) _), dropPre_none (P _ (by simp) _), dropPre_none (P _ (by simp) _), dropPre_none (P _ (by simp) _), dropPre_none (P _ (by simp) _), E.tag_back t ht c r hc]
  simp

theorem readValue_back (E : L.Evaluable okTag okVal okLink) {v : Val} (hv : okVal v) {c : Char} (hc : c = ',' ∨ c = ')') (r : List Char) :
    readValue L ("value=".toList ++ (L.valRepr v ++ c :: r)) = (argEnd (c :: r)).map fun s => (v, s) := by
  unfold readValue
  rw [dropPre_self]
  simp [E.val_back v hv c r hc]

theorem bin_all : ∀ f : BitVec 6, f ≠ 0#6 → (∀ c ∈ flagDigits f.toNat, (c == '0' || c == '1') = true) ∧
    BitVec.ofNat 6 ((flagDigits f.toNat).foldl (fun a c => 2 * a + (if c = '1' then 1 else 0)) 0) = f ∧ flagDigits f.toNat ≠ [] := by decide +kernel

theorem readFlags_back {f : Flags} (hf : f ≠ 0#6) (r : List Char) : readFlags ("flags=0b".toList ++ (flagDigits f.toNat ++ ')' :: r)) = some (f, ')' :: r) := by
  obtain ⟨a, b, c⟩ := bin_all f hf
  unfold readFlags
  rw [dropPre_self]
  dsimp only
  rw [List.takeWhile_append_of_pos a, List.dropWhile_append_of_pos a]
  have t1 : List.takeWhile (fun c : Char => c == '0' || c == '1') (')' :: r) = [] := by rfl
  have t2 : List.dropWhile (fun c : Char => c == '0' || c == '1') (')' :: r) = ')' :: r := by rfl
  rw [t1, t2, List.append_nil, if_neg c, b]

/-- the text after the link argument -/
def flagsTail (f : Flags) (r : List Char) : List Char := if f = 0#6 then ')' :: r else "flags=0b".toList ++ (flagDigits f.toNat ++ ')' :: r)

theorem readFlags_tail (f : Flags) (r : List Char) : readFlags (flagsTail f r) = some (f, ')' :: r) := by
  unfold flagsTail
  split
  · next e => subst e; rfl
  · next e => exact readFlags_back e r

/-- an argument followed by others: with a separator unless the end follows -/
def withSep (s : List Char) : List Char := if s.head? = some ')' then s else ',' :: ' ' :: s

theorem argEnd_withSep (s : List Char) : argEnd (withSep s) = some s := by
  unfold withSep
  split
  · next e =>
    cases s with
    | nil => simp at e
    | cons c s => simp at e; subst e; rfl
  · rfl

theorem withSep_head (s : List Char) : ∃ c r, withSep s = c :: r ∧ (c = ',' ∨ c = ')') := by
  unfold withSep
  split
  · next e =>
    cases s with
    | nil => simp at e
    | cons c s => simp at e; subst e; exact ⟨_, _, rfl, .inr rfl⟩
  · exact ⟨_, _, rfl, .inl rfl⟩

/-- the text after the subtree argument -/
def linkTail (L : Literals) (l : Option (Option String × List Tag)) (f : Flags) (r : List Char) : List Char :=
  match l with
  | none => flagsTail f r
  | some q => "link=iTLink(".toList ++ (L.linkRepr q.1 q.2 ++ ')' :: withSep (flagsTail f r))

def subTail (L : Literals) (sub : Option (List Char)) (l : Option (Option String × List Tag)) (f : Flags) (r : List Char) : List Char :=
  match sub with
  | none => linkTail L l f r
  | some b => "subtree=[".toList ++ (b ++ ']' :: withSep (linkTail L l f r))

def valTail (L : Literals) (v : Val) (sub : Option (List Char)) (l : Option (Option String × List Tag)) (f : Flags) (r : List Char) : List Char :=
  if v.isNoValue then subTail L sub l f r else "value=".toList ++ (L.valRepr v ++ withSep (subTail L sub l f r))

def tagTail (L : Literals) (t : Tag) (v : Val) (sub : Option (List Char)) (l : Option (Option String × List Tag)) (f : Flags) (r : List Char) : List Char :=
  if t = .noTag then valTail L v sub l f r else L.tagRepr t ++ withSep (valTail L v sub l f r)

theorem readTag_tail (E : L.Evaluable okTag okVal okLink) {t : Tag} (ht : t ≠ .noTag → okTag t) (v : Val) (sub : Option (List Char)) (l : Option (Option String × List Tag)) (f : Flags) (r : List Char) :
    readTag L (tagTail L t v sub l f r) = some (t, valTail L v sub l f r) := by
  unfold tagTail
  split
  · next e =>
    subst e
    unfold valTail
    split
    · cases sub with
      | none =>
        cases l with
        | none =>
          unfold subTail linkTail flagsTail
          dsimp only
          split
          · rfl
          · rfl
        | some q => rfl
      | some b => rfl
    · rfl
  · next e =>
    obtain ⟨c, r', e1, hc⟩ := withSep_head (valTail L v sub l f r)
    rw [e1, readTag_back E (ht e) hc, ← e1, argEnd_withSep]
    rfl

theorem isNoValue_iff (v : Val) : v.isNoValue = true ↔ v = .noValue := by cases v <;> simp [Val.isNoValue]

theorem readValue_tail (E : L.Evaluable okTag okVal okLink) {v : Val} (hv : v ≠ .noValue → okVal v) (sub : Option (List Char)) (l : Option (Option String × List Tag)) (f : Flags) (r : List Char) :
    readValue L (valTail L v sub l f r) = some (v, subTail L sub l f r) := by
  unfold valTail
  split
  · next e =>
    rw [isNoValue_iff] at e; subst e
    cases sub with
    | none =>
      cases l with
      | none =>
        unfold subTail linkTail flagsTail
        dsimp only
        split
        · rfl
        · rfl
      | some q => rfl
    | some b => rfl
  · next e =>
    rw [isNoValue_iff] at e
    obtain ⟨c, r', e1, hc⟩ := withSep_head (subTail L sub l f r)
    rw [e1, readValue_back E (hv e) hc, ← e1, argEnd_withSep]
    rfl

theorem readSub_none (p : List Char → Option (Shape × List Char)) (n : Nat) (l : Option (Option String × List Tag)) (f : Flags) (r : List Char) :
    readSub p n (subTail L none l f r) = some ([], linkTail L l f r) := by
  have : dropPre "subtree=[".toList (linkTail L l f r) = none := by
    cases l with
    | none =>
      unfold linkTail flagsTail
      dsimp only
      split
      · rfl
      · rfl
    | some q => rfl
  show readSub p n (linkTail L l f r) = _
  unfold readSub
  rw [this]

theorem readSub_some (p : List Char → Option (Shape × List Char)) (n : Nat) (b : List Char) (ks : List Shape) (l : Option (Option String × List Tag)) (f : Flags) (r : List Char)
    (h : ∀ s, readList p n (b ++ ']' :: s) = some (ks, s)) : readSub p n (subTail L (some b) l f r) = some (ks, linkTail L l f r) := by
  unfold readSub subTail
  dsimp only
  rw [dropPre_self]
  dsimp only
  rw [h, Option.bind_some, argEnd_withSep]
  rfl

theorem readLink_tail (E : L.Evaluable okTag okVal okLink) {l : Option (Option String × List Tag)} (hl : ∀ q, l = some q → okLink q.1 q.2) (f : Flags) (r : List Char) :
    readLink L (linkTail L l f r) = some (l, flagsTail f r) := by
  cases l with
  | none =>
    have : dropPre "link=iTLink(".toList (flagsTail f r) = none := by
      unfold flagsTail
      split
      · rfl
      · rfl
    show readLink L (flagsTail f r) = _
    unfold readLink
    rw [this]
  | some q =>
    have e : dropPre [')'] (')' :: withSep (flagsTail f r)) = some (withSep (flagsTail f r)) := dropPre_self [')'] _
    unfold readLink linkTail
    dsimp only
    rw [dropPre_self]
    dsimp only
    rw [E.link_back _ _ (hl q rfl), Option.bind_some]
    dsimp only
    rw [e, Option.bind_some, argEnd_withSep]
    rfl

/-- the pieces for the subtree -/
def subPieces : Option (List Char) → List (List Char)
  | none => []
  | some b => ["subtree=".toList, '[' :: (b ++ [']']), [',', ' ']]

/-- the arguments of a link -/
def barePart : Option LinkSt → Option (Option String × List Tag)
  | none => none
  | some lk => some (lk.file, lk.path)

/-- what the code joins is the text the reader expects -/
theorem closeRepr_eq (E : L.Evaluable okTag okVal okLink) {t : Tag} (ht : t ≠ .noTag → okTag t) {v : Val} (hv : v ≠ .noValue → okVal v) (sub : Option (List Char)) (c : List Char) {l : Option LinkSt}
    (hl : ∀ lk, l = some lk → lk.cover = none ∧ lk.loaded = false) (f : Flags) (r : List Char) :
    closeRepr (reprHead L t v ++ subPieces sub ++ reprTail L c f l) ++ r = "iTree(".toList ++ tagTail L t v sub (barePart l) f r := by
  have tc : ∀ h : t ≠ .noTag, L.tagRepr t ≠ [','] := fun h => E.tag_comma t (ht h)
  have vc : ∀ h : v ≠ .noValue, L.valRepr v ≠ [','] := fun h => E.val_comma v (hv h)
  have nv := isNoValue_iff v
  cases l with
  | none =>
    unfold reprTail reprLink shownBits barePart tagTail valTail subTail linkTail flagsTail reprHead reprFlags
    by_cases e1 : t = .noTag <;> by_cases e2 : v.isNoValue = true <;> by_cases e3 : f = 0#6 <;> cases sub <;>
      simp [closeRepr, withSep, subPieces, e1, e2, e3, tc, vc, ← nv, List.getLast?_cons_cons]
  | some lk =>
    obtain ⟨h1, h2⟩ := hl lk rfl
    unfold reprTail reprLink shownBits barePart tagTail valTail subTail linkTail flagsTail reprHead reprFlags
    by_cases e1 : t = .noTag <;> by_cases e2 : v.isNoValue = true <;> by_cases e3 : f = 0#6 <;> cases sub <;>
      simp [closeRepr, withSep, subPieces, e1, e2, e3, h1, h2, tc, vc, ← nv, List.getLast?_cons_cons]

theorem allSome_map {α β γ : Type} {f : α → Option β} {g : γ → α} {k : γ → β} (l : List γ) (h : ∀ a ∈ l, f (g a) = some (k a)) : allSome f (l.map g) = some (l.map k) := by
  induction l with
  | nil => rfl
  | cons a l ih =>
    simp only [List.map_cons, allSome, h a (by simp), ih fun b hb => h b (by simp [hb])]

theorem commaJoin_cons (s : List Char) (ss : List (List Char)) (h : ss ≠ []) : commaJoin (s :: ss) = s ++ ',' :: ' ' :: commaJoin ss := by
  cases ss with
  | nil => exact absurd rfl h
  | cons a l => rfl

theorem readList_join {α : Type} {p : List Char → Option (α × List Char)} : ∀ (n : Nat) (l : List (List Char × α)), l ≠ [] → l.length ≤ n → (∀ a ∈ l, ∀ r, p (a.1 ++ r) = some (a.2, r)) → ∀ s,
    readList p n (commaJoin (l.map Prod.fst) ++ ']' :: s) = some (l.map Prod.snd, s) := by
  intro n
  induction n with
  | zero => intro l h1 h2; cases l <;> simp_all
  | succ n ih =>
    intro l h1 h2 h3 s
    cases l with
    | nil => exact absurd rfl h1
    | cons a l =>
      cases l with
      | nil =>
        simp only [List.map_cons, List.map_nil, commaJoin, readList, h3 a (by simp)]
      | cons b l =>
        have := ih (b :: l) (by simp) (by simpa using h2) (fun c hc => h3 c (by simp [hc])) s
        rw [List.map_cons, commaJoin_cons _ _ (by simp), List.append_assoc]
        simp only [List.cons_append, readList, h3 a (by simp)]
        rw [this]
        rfl

/-- `unlinkedL` is a map -/
theorem bareL_eq (l : List Shape) : Shape.bareL l = l.map Shape.bare := by
  induction l with
  | nil => rfl
  | cons a l ih => simp [Shape.bareL, ih]

/-- one call is read back -/
theorem readItem_node (E : L.Evaluable okTag okVal okLink) {t : Tag} (ht : t ≠ .noTag → okTag t) {v : Val} (hv : v ≠ .noValue → okVal v) (sub : Option (List Char)) (c : List Char) {l : Option LinkSt}
    (hl : ∀ lk, l = some lk → lk.cover = none ∧ lk.loaded = false ∧ okLink lk.file lk.path) (f : Flags) (ks : List Shape) (n : Nat)
    (hs : ∀ r, readSub (readItem L n) (n + 1) (subTail L sub (barePart l) f r) = some (ks, linkTail L (barePart l) f r)) (r : List Char) :
    readItem L (n + 1) (closeRepr (reprHead L t v ++ subPieces sub ++ reprTail L c f l) ++ r) = some (.node t v f (l.map fun l => { file := l.file, path := l.path }) ks, r) := by
  rw [closeRepr_eq E ht hv sub c (fun lk e => ⟨(hl lk e).1, (hl lk e).2.1⟩)]
  unfold readItem
  rw [dropPre_self, Option.bind_some, readTag_tail E ht, Option.bind_some, readValue_tail E hv, Option.bind_some, hs, Option.bind_some,
    readLink_tail E (by intro q hq; cases l with | none => cases hq | some lk => cases hq; exact (hl lk rfl).2.2), Option.bind_some, readFlags_tail, Option.bind_some]
  cases l <;> rfl

theorem idsL_length_ge (ks : List Tree) : ks.length ≤ (Tree.idsL ks).length := by
  induction ks with
  | nil => simp
  | cons k ks ih =>
    rw [Tree.idsL_cons, List.length_append, List.length_cons]
    cases k; rw [Tree.ids_node, List.length_cons]; omega

theorem ids_le_idsL {k : Tree} {ks : List Tree} (h : k ∈ ks) : k.ids.length ≤ (Tree.idsL ks).length := by
  induction ks with
  | nil => simp at h
  | cons a ks ih =>
    rw [Tree.idsL_cons, List.length_append]
    rcases List.mem_cons.1 h with e | e
    · subst e; omega
    · have := ih e; omega

theorem closeRepr_length (out : List (List Char)) : 1 ≤ (closeRepr out).length := by simp [closeRepr]

theorem commaJoin_length (f : Tree → List Char) (ks : List Tree) (h : ∀ k ∈ ks, k.ids.length ≤ (f k).length) : (Tree.idsL ks).length ≤ (commaJoin (ks.map f)).length := by
  induction ks with
  | nil => simp [Tree.idsL_nil]
  | cons k ks ih =>
    have h1 := h k (by simp)
    have h2 := ih fun a ha => h a (by simp [ha])
    rw [Tree.idsL_cons, List.length_append, List.map_cons]
    by_cases e : ks.map f = []
    · have : ks = [] := by simpa using e
      subst this
      simp only [List.map_nil, commaJoin, Tree.idsL_nil, List.length_nil]; omega
    · rw [commaJoin_cons _ _ e]
      simp only [List.length_append, List.length_cons]; omega

theorem le_withSep (s : List Char) : s.length ≤ (withSep s).length := by
  unfold withSep
  split
  · exact Nat.le_refl _
  · simp only [List.length_cons]; omega

theorem le_mid {α : Type} (a b c : List α) : b.length ≤ (a ++ (b ++ c)).length := by
  rw [List.length_append, List.length_append]; omega

theorem le_end {α : Type} (a b c : List α) : c.length ≤ (a ++ (b ++ c)).length := by
  rw [List.length_append, List.length_append]; omega

theorem le_subTail (L : Literals) (b : List Char) (l : Option (Option String × List Tag)) (f : Flags) (r : List Char) : b.length ≤ (subTail L (some b) l f r).length := le_mid _ _ _

theorem le_valTail (L : Literals) (v : Val) (sub : Option (List Char)) (l : Option (Option String × List Tag)) (f : Flags) (r : List Char) : (subTail L sub l f r).length ≤ (valTail L v sub l f r).length := by
  unfold valTail
  split
  · exact Nat.le_refl _
  · exact Nat.le_trans (le_withSep _) (le_end _ _ _)

theorem le_tagTail (L : Literals) (t : Tag) (v : Val) (sub : Option (List Char)) (l : Option (Option String × List Tag)) (f : Flags) (r : List Char) : (valTail L v sub l f r).length ≤ (tagTail L t v sub l f r).length := by
  unfold tagTail
  split
  · exact Nat.le_refl _
  · exact Nat.le_trans (le_withSep _) (by rw [List.length_append]; omega)

theorem coverText_none {p : Id → Option (List Char)} {l : Option LinkSt} (h : ∀ lk, l = some lk → lk.cover = none) : coverText p l = some [] := by
  cases l with
  | none => rfl
  | some lk => simp only [coverText, h lk rfl]

/-- printing and reading one tree -/
theorem repr_read (E : L.Evaluable okTag okVal okLink) {h : Heap} (lim : Nat) : ∀ {T : Tree}, Rep h T → (∀ y ∈ T.ids, (h.tag y ≠ .noTag → okTag (h.tag y)) ∧ ((h.node y).value ≠ .noValue → okVal (h.node y).value) ∧
      (h.kids y ≠ [] → 5 * h.level y ≤ lim) ∧ ∀ lk, (h.node y).link = some lk → lk.cover = none ∧ lk.loaded = false ∧ okLink lk.file lk.path) →
    ∃ text, T.ids.length ≤ text.length ∧ (∀ n, T.ids.length ≤ n → reprItem L lim h n T.id = some text) ∧ ∀ n, T.ids.length ≤ n → ∀ r, readItem L n (text ++ r) = some (T.shape.bare, r) := by
  intro T
  induction T using Tree.ind with
  | H i t v f l ks ih =>
    intro R hy
    simp only [Rep, repL_iff] at R
    obtain ⟨h1, h2, h3, h4, h5, h6⟩ := R
    rw [Tree.ids_node] at hy
    obtain ⟨y1, y2, y3, y4⟩ := hy i (by simp)
    rw [h1] at y1
    rw [h2] at y2
    rw [h4] at y4
    by_cases e : ks = []
    · subst e
      have hk : h.kids i = [] := h5
      refine ⟨closeRepr (reprHead L t v ++ subPieces none ++ reprTail L [] f l), ?_, ?_, ?_⟩
      · simpa [Tree.ids_node, Tree.idsL_nil] using closeRepr_length _
      · intro n hn
        obtain ⟨n, rfl⟩ : ∃ m, n = m + 1 := ⟨n - 1, by simp [Tree.ids_node] at hn; omega⟩
        simp only [reprItem, Tree.id, if_pos hk, h1, h2, h3, h4, subPieces, List.append_nil, coverText_none fun lk e => (y4 lk e).1, Option.bind_some]
      · intro n hn r
        obtain ⟨n, rfl⟩ : ∃ m, n = m + 1 := ⟨n - 1, by simp [Tree.ids_node] at hn; omega⟩
        exact readItem_node E y1 y2 none [] y4 f [] n (fun r => readSub_none _ _ _ _ _) r
    · have hk : h.kids i ≠ [] := by rw [h5]; simpa using e
      have I : ∀ k : Tree, ∃ text : List Char, k ∈ ks → k.ids.length ≤ text.length ∧ (∀ n, k.ids.length ≤ n → reprItem L lim h n k.id = some text) ∧
          ∀ n, k.ids.length ≤ n → ∀ r, readItem L n (text ++ r) = some (k.shape.bare, r) := by
        intro k
        by_cases hm : k ∈ ks
        · obtain ⟨text, a⟩ := ih k hm (h6 k hm) (fun y hy' => hy y (by simp only [List.mem_cons]; exact .inr (Tree.mem_idsL.2 ⟨k, hm, hy'⟩)))
          exact ⟨text, fun _ => a⟩
        · exact ⟨[], fun hh => absurd hh hm⟩
      choose g hg using I
      have hlen := commaJoin_length g ks fun k hk => (hg k hk).1
      refine ⟨closeRepr (reprHead L t v ++ subPieces (some (commaJoin (ks.map g))) ++ reprTail L [] f l), ?_, ?_, ?_⟩
      · have := congrArg List.length (closeRepr_eq E y1 y2 (some (commaJoin (ks.map g))) [] (fun lk e => ⟨(y4 lk e).1, (y4 lk e).2.1⟩) f [])
        rw [List.append_nil] at this
        rw [this, Tree.ids_node, List.length_cons]
        have a1 := le_subTail L (commaJoin (ks.map g)) (barePart l) f []
        have a3 := le_valTail L v (some (commaJoin (ks.map g))) (barePart l) f []
        have a4 := le_tagTail L t v (some (commaJoin (ks.map g))) (barePart l) f []
        have a5 : "iTree(".toList.length = 6 := by rfl
        rw [List.length_append, a5]
        omega
      · intro n hn
        rw [Tree.ids_node, List.length_cons] at hn
        obtain ⟨n, rfl⟩ : ∃ m, n = m + 1 := ⟨n - 1, by omega⟩
        have hl : ¬ lim < 5 * h.level i := by have := y3 hk; omega
        have hall : allSome (reprItem L lim h n) (h.kids i) = some (ks.map g) := by
          rw [h5]
          exact allSome_map ks fun k hk => (hg k hk).2.1 n (by have := ids_le_idsL hk; omega)
        simp only [reprItem, Tree.id, if_neg hk, if_neg hl, hall, h1, h2, h3, h4, subPieces, Option.map_some, coverText_none fun lk e => (y4 lk e).1, Option.bind_some]
      · intro n hn r
        rw [Tree.ids_node, List.length_cons] at hn
        obtain ⟨n, rfl⟩ : ∃ m, n = m + 1 := ⟨n - 1, by omega⟩
        have := readItem_node E y1 y2 (some (commaJoin (ks.map g))) [] y4 f (ks.map fun k => k.shape.bare) n (fun r => readSub_some _ _ _ _ _ _ _ (fun s => by
          have := readList_join (p := readItem L n) (n + 1) (ks.map fun k => (g k, k.shape.bare)) (by simpa using e) (by have := idsL_length_ge ks; simp; omega) (by
            intro a ha r
            obtain ⟨k, hk, rfl⟩ := List.mem_map.1 ha
            exact (hg k hk).2.2 n (by have := ids_le_idsL hk; omega) r) s
          simpa [List.map_map, Function.comp_def] using this)) r
        rw [this]
        simp [Tree.shape, Shape.bare, bareL_eq, shapeL_eq, List.map_map, Function.comp_def]

/-- the link of a quiet call stays as it is -/
theorem quiet_link {f : Flags} {l : Option LinkSt} (h : ∀ lk, l = some lk → lk = { file := lk.file, path := lk.path } ∧ f.has Flags.linkRoot = true ∧ f.has Flags.loadLinks = false) :
    (if f.has Flags.linkRoot then l.map fun l => { file := l.file, path := l.path } else none) = l := by
  cases l with
  | none => simp
  | some lk =>
    obtain ⟨h1, h2, -⟩ := h lk rfl
    rw [if_pos h2, Option.map_some, ← h1]

mutual
theorem rebuild_spec {Ok : Heap → List (Id × Shape) → Prop} (law : Law heapBuilder Ok) : ∀ (s : Shape) {h : Heap} {M : List (Id × Shape)}, s.Quiet → Ok h M → Ok (rebuild h s).1 (((rebuild h s).2, s.restored) :: M)
  | .node t v f l ks, h, M, q, o => by
    obtain ⟨K, e, o'⟩ := rebuildL_spec law ks q.2 o
    have := law.new t v f l q.1 o'
    simp only [rebuild]
    rw [e.1] at this
    simp only [Shape.restored, orL_eq, restoredL_eq, ← e.2, List.map_map, quiet_link q.1]
    exact this
theorem rebuildL_spec {Ok : Heap → List (Id × Shape) → Prop} (law : Law heapBuilder Ok) : ∀ (ks : List Shape) {h : Heap} {M : List (Id × Shape)}, Shape.QuietL ks → Ok h M →
    ∃ K : List (Id × Shape), (K.map Prod.fst = (rebuildL h ks).2 ∧ K.map Prod.snd = ks.map Shape.restored) ∧ Ok (rebuildL h ks).1 (K ++ M)
  | [], h, M, _, o => ⟨[], ⟨rfl, rfl⟩, o⟩
  | k :: ks, h, M, q, o => by
    have o1 := rebuild_spec law k q.1 o
    obtain ⟨K, e, o2⟩ := rebuildL_spec law ks q.2 o1
    refine ⟨((rebuild h k).2, k.restored) :: K, ⟨by simp [rebuildL, e.1], by simp [e.2]⟩, ?_⟩
    exact law.perm o2 (by rw [List.cons_append]; exact List.perm_middle)
end
end ITree
