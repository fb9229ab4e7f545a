import Verif.Model.Render
import Verif.Spec.Order
import Verif.Props.Demo
/-
C36: rendering.
-/
namespace ITree

/-- one printed line: level below the root's children, number among the printed siblings, the item -/
structure PLine where
  level : Nat
  nr : Nat
  item : Tree

mutual
/-- the printed items below an item: hierarchical pre-order (an item that does not match hides everything below it) -/
def Tree.printed (p : Id → Bool) (level : Nat) : Tree → List PLine
  | .node _ _ _ _ _ ks => Tree.printedL p level 0 ks
def Tree.printedL (p : Id → Bool) (level : Nat) : Nat → List Tree → List PLine
  | _, [] => []
  | nr, k :: ks => if p k.id then ⟨level, nr, k⟩ :: (Tree.printed p (level + 1) k ++ Tree.printedL p level (nr + 1) ks) else Tree.printedL p level nr ks
end

/-- the text of a line: indentation (a function of the level), heading, the number if wanted, the item -/
def PLine.text (P : Reprs) (natStr : Nat → List Char) (enum : Bool) (l : PLine) : List Char :=
  lineHead l.level (l.item.flags.has Flags.linked) ++ itemStr P natStr (if enum then some l.nr else none) l.item

theorem render_kids (P : Reprs) (natStr : Nat → List Char) (p : Option (Id → Bool)) (enum : Bool) (hp : enum = true → p.isSome = true) (ts : List Tree) : ∀ (level cnt : Nat),
    renderKids P natStr p enum level cnt ts = .ok ((Tree.printedL (fun i => (p.getD fun _ => true) i) level cnt ts).flatMap (PLine.text P natStr enum)) := by
  refine Tree.rec_1 (motive_1 := fun (T : Tree) => ∀ (level : Nat), renderBelow P natStr p enum level T = .ok ((Tree.printed (fun i => (p.getD fun _ => true) i) level T).flatMap (PLine.text P natStr enum)))
    (motive_2 := fun (ts : List Tree) => ∀ (level cnt : Nat), renderKids P natStr p enum level cnt ts = .ok ((Tree.printedL (fun i => (p.getD fun _ => true) i) level cnt ts).flatMap (PLine.text P natStr enum))) ?_ ?_ ?_ ts
  · intro i t v f l ks ih level
    simp only [renderBelow, Tree.printed, ih]
  · intro level cnt; rfl
  · intro k ks ihk ih level cnt
    have hpass : passes p k = (p.getD fun _ => true) k.id := by cases p <;> rfl
    have he : (enum && p.isNone) = false := by
      cases enum with
      | false => rfl
      | true => have := hp rfl; cases p <;> simp_all
    cases hb : passes p k with
    | false => simp only [renderKids, hb, if_true, ih, Tree.printedL, ← hpass, Bool.false_eq_true, if_false]
    | true =>
      simp only [renderKids, hb, he, ihk, ih, Tree.printedL, ← hpass, if_true, Bool.true_eq_false, Bool.false_eq_true, if_false, List.flatMap_cons, List.flatMap_append, PLine.text,
        List.append_assoc]

/-- C36: `renders` delivers the line of the item itself (if it matches) followed by one line per printed item. (With `enumerate` only if a filter is given, see below.) -/
theorem C36_render_partial (P : Reprs) (natStr : Nat → List Char) (p : Option (Id → Bool)) (enum : Bool) (hp : enum = true → p.isSome = true) (T : Tree) :
    renders P natStr p enum T = .ok ((if passes p T then itemStr P natStr (if enum then some 0 else none) T else []) ++
      (Tree.printedL (fun i => (p.getD fun _ => true) i) 0 0 T.kids).flatMap (PLine.text P natStr enum)) := by
  obtain ⟨i, t, v, f, l, ks⟩ := T
  simp only [renders, renderBelow, render_kids P natStr p enum hp, Tree.kids]

/-- C36: the printed items are exactly the items of the hierarchical pre-order (the order of `deep` iteration), each once … -/
theorem C36_order (p : Id → Bool) (ts : List Tree) : ∀ (level nr : Nat), (Tree.printedL p level nr ts).map (fun l => l.item.id) = Tree.preFL p ts := by
  refine Tree.rec_1 (motive_1 := fun (T : Tree) => ∀ (level : Nat), (Tree.printed p level T).map (fun l => l.item.id) = Tree.preFL p T.kids)
    (motive_2 := fun (ts : List Tree) => ∀ (level nr : Nat), (Tree.printedL p level nr ts).map (fun l => l.item.id) = Tree.preFL p ts) ?_ ?_ ?_ ts
  · intro i t v f l ks ih level; simp only [Tree.printed, ih, Tree.kids]
  · intro level nr; rfl
  · intro k ks ihk ih level nr
    obtain ⟨i, t, v, f, l, kk⟩ := k
    simp only [Tree.printedL, Tree.preFL, Tree.preF, Tree.id, Tree.kids] at *
    by_cases hb : p i
    · simp [hb, ihk, ih, Tree.id]
    · simp [hb, ih]

/-- C36: … and the level of a line is the depth of the item: indentation is a function of the depth only. -/
theorem C36_level (p : Id → Bool) (ts : List Tree) : ∀ (level nr : Nat), ∀ l ∈ Tree.printedL p level nr ts, level ≤ l.level ∧ l.item.id ∈ Tree.atLevelL (l.level - level) ts := by
  refine Tree.rec_1 (motive_1 := fun (T : Tree) => ∀ (level : Nat), ∀ l ∈ Tree.printed p level T, level ≤ l.level ∧ l.item.id ∈ Tree.atLevelL (l.level - level) T.kids)
    (motive_2 := fun (ts : List Tree) => ∀ (level nr : Nat), ∀ l ∈ Tree.printedL p level nr ts, level ≤ l.level ∧ l.item.id ∈ Tree.atLevelL (l.level - level) ts) ?_ ?_ ?_ ts
  · intro i t v f l ks ih level x hx; exact ih level 0 x hx
  · intro level nr l hl; simp [Tree.printedL] at hl
  · intro k ks ihk ih level nr l hl
    simp only [Tree.printedL] at hl
    split at hl
    · rcases List.mem_cons.1 hl with rfl | hl
      · refine ⟨Nat.le_refl _, ?_⟩
        obtain ⟨i, t, v, f, l, kk⟩ := k
        show _ ∈ Tree.atLevelL (level - level) _
        rw [Nat.sub_self]
        simp [Tree.atLevelL, Tree.atLevel, Tree.id]
      · rcases List.mem_append.1 hl with hl | hl
        · obtain ⟨h1, h2⟩ := ihk _ l hl
          refine ⟨by omega, ?_⟩
          obtain ⟨i, t, v, f, l', kk⟩ := k
          obtain ⟨d, hd⟩ : ∃ d, l.level - level = d + 1 := ⟨l.level - level - 1, by omega⟩
          have : l.level - (level + 1) = d := by omega
          rw [this] at h2
          rw [hd]
          simp only [Tree.atLevelL, Tree.atLevel, List.mem_append]
          exact .inl h2
        · obtain ⟨h1, h2⟩ := ih _ _ l hl
          refine ⟨h1, ?_⟩
          cases hd : l.level - level <;> rw [hd] at h2 <;> simp only [Tree.atLevelL, List.mem_append] <;> exact .inr h2
    · obtain ⟨h1, h2⟩ := ih _ _ l hl
      refine ⟨h1, ?_⟩
      cases hd : l.level - level <;> rw [hd] at h2 <;> simp only [Tree.atLevelL, List.mem_append] <;> exact .inr h2

/-- the representations contain no line breaks (true for the built-in types) -/
structure Reprs.OneLine (P : Reprs) : Prop where
  cls : '\n' ∉ P.cls
  tag : ∀ t, '\n' ∉ P.tag t
  val : ∀ v, '\n' ∉ P.val v
  file : ∀ f, '\n' ∉ P.file f
  path : ∀ t, '\n' ∉ P.path t

theorem binStr_nl : ∀ f : Flags, '\n' ∉ binStr f := by decide +kernel

theorem itemPieces_nl {P : Reprs} (O : P.OneLine) (T : Tree) : ∀ s ∈ itemPieces P T, '\n' ∉ s := by
  obtain ⟨i, t, v, f, l, ks⟩ := T
  have h1 : ∀ s ∈ [P.cls ++ ['(']] ++ (if t = .noTag then [] else [P.tag t, [',', ' ']]), '\n' ∉ s := by
    intro s hs
    have c := O.cls; have tg := O.tag t
    split at hs <;> simp at hs
    · subst hs; simpa using c
    · rcases hs with rfl | rfl | rfl
      · simpa using c
      · exact tg
      · decide
  have h2 : ∀ s ∈ valuePieces P v, '\n' ∉ s := by
    intro s hs
    unfold valuePieces at hs
    split at hs
    · simp at hs
    · simp only [List.mem_cons, List.not_mem_nil, or_false] at hs
      rcases hs with rfl | rfl | rfl
      · decide
      · exact O.val _
      · decide
  have h3 : ∀ s ∈ linkPieces P l, '\n' ∉ s := by
    intro s hs
    unfold linkPieces at hs
    split at hs
    · rename_i l
      have a := O.file l.file; have b := O.path l.path
      split at hs
      · simp only [List.mem_cons, List.not_mem_nil, or_false] at hs
        rcases hs with rfl | rfl
        · simp [a, b]
        · decide
      · simp at hs
    · simp at hs
  have hd : ∀ (d : List (List Char)), (∀ s ∈ d, '\n' ∉ s) → ∀ x : List Char, ∀ s ∈ (if d.getLast? = some x then d.dropLast else d), '\n' ∉ s := by
    intro d hd x s hs
    split at hs
    · exact hd s (List.dropLast_subset _ hs)
    · exact hd s hs
  unfold itemPieces
  apply hd
  apply hd
  intro s hs
  simp only [Tree.tag, Tree.value, Tree.link, Tree.flags] at hs
  rcases List.mem_append.1 hs with hs | hs
  · rcases List.mem_append.1 hs with hs | hs
    · rcases List.mem_append.1 hs with hs | hs
      · exact h1 s hs
      · exact h2 s hs
    · exact h3 s hs
  · have h4 : ∀ (c : Prop) [Decidable c] (g : Flags), ∀ s ∈ (if c then ["flags=".toList ++ binStr g] else []), '\n' ∉ s := by
      intro c _ g s hs
      by_cases hc : c
      · rw [if_pos hc] at hs
        simp only [List.mem_cons, List.not_mem_nil, or_false] at hs
        subst hs
        simp [binStr_nl]
      · rw [if_neg hc] at hs; simp at hs
    exact h4 _ _ s hs

theorem itemStr_nl {P : Reprs} (O : P.OneLine) {natStr : Nat → List Char} (hn : ∀ n, '\n' ∉ natStr n) (c : Option Nat) (T : Tree) : (itemStr P natStr c T).count '\n' = 1 := by
  have h0 : (itemPieces P T).flatten.count '\n' = 0 := by
    rw [List.count_eq_zero]
    intro hm
    obtain ⟨s, hs, hm⟩ := List.mem_flatten.1 hm
    exact itemPieces_nl O T s hs hm
  have h1 : (cntPieces natStr c).count '\n' = 0 := by
    rw [List.count_eq_zero]
    cases c with
    | none => simp [cntPieces]
    | some n => simp [cntPieces, hn n]
  simp only [itemStr, List.count_append, h0, h1]
  decide

theorem lineHead_nl (level : Nat) (b : Bool) : (lineHead level b).count '\n' = 0 := by
  rw [List.count_eq_zero]
  intro hm
  simp only [lineHead, List.mem_cons, List.mem_append, List.mem_flatten] at hm
  rcases hm with h | ⟨s, hs, hm⟩ | h
  · exact absurd h (by decide)
  · rw [List.eq_of_mem_replicate hs] at hm; exact absurd hm (by decide)
  · cases b <;> exact absurd h (by decide)

/-- C36: the rendered text has exactly one line per printed item (plus the line of the item itself if it matches). -/
theorem C36_one_line_each_partial {P : Reprs} (O : P.OneLine) {natStr : Nat → List Char} (hn : ∀ n, '\n' ∉ natStr n) (p : Option (Id → Bool)) (enum : Bool) (hp : enum = true → p.isSome = true) (T : Tree) :
    ∃ text, renders P natStr p enum T = .ok text ∧
      text.count '\n' = (if passes p T then 1 else 0) + (Tree.preFL (fun i => (p.getD fun _ => true) i) T.kids).length := by
  refine ⟨_, C36_render_partial P natStr p enum hp T, ?_⟩
  rw [List.count_append, ← C36_order _ _ 0 0, List.length_map]
  congr 1
  · split
    · exact itemStr_nl O hn _ _
    · rfl
  · generalize Tree.printedL _ 0 0 T.kids = L
    induction L with
    | nil => rfl
    | cons l L ih =>
      rw [List.flatMap_cons, List.count_append, ih, PLine.text, List.count_append, lineHead_nl, itemStr_nl O hn]
      simp; omega

/-- Disagreement: `enumerate=True` without a filter fails (UnboundLocalError: `cnt`) for every item with children. -/
theorem C36_enumerate_wrong (P : Reprs) (natStr : Nat → List Char) (T : Tree) (hk : T.kids ≠ []) : renders P natStr none true T = .error .unbound := by
  obtain ⟨i, t, v, f, l, ks⟩ := T
  cases ks with
  | nil => simp [Tree.kids] at hk
  | cons k ks => simp [renders, renderBelow, renderKids, passes]

/-- The documentation of the renderer says the root is always printed; in fact a root that does not match is not printed. -/
theorem C36_root_filtered (P : Reprs) (natStr : Nat → List Char) (T : Tree) : renders P natStr (some fun _ => false) false T = .ok [] := by
  have : ∀ ts nr, Tree.printedL (fun _ => false) 0 nr ts = [] := by
    intro ts nr
    induction ts with
    | nil => rfl
    | cons k ks ih => simp [Tree.printedL, ih]
  rw [C36_render_partial _ _ _ _ (by simp)]
  simp [passes, this]

/-- a concrete renderer text -/
def reprs0 : Reprs := ⟨"iTree".toList, fun t => match t with | .str s => s.toList | .other n => ['T', Char.ofNat (48 + n)] | _ => ['?'], fun v => match v with | .int 1 => ['1'] | _ => ['v'], fun _ => [], fun _ => []⟩
/-- a renderer text without line breaks, so the hypothesis of the line count can be met -/
example : Reprs.OneLine ⟨"iTree".toList, fun _ => ['t'], fun _ => ['v'], fun _ => [], fun _ => []⟩ :=
  ⟨by decide, fun _ => by simp, fun _ => by simp, fun _ => by simp, fun _ => by simp⟩
example : renders reprs0 (fun _ => ['0']) none false (demo.tree 0) =
    .ok "iTree(T0)\n > iTree(T1, value=1)\n .  > iTree(value=v)\n > iTree(T2, value=v)\n > iTree(T1, value=v)\n > iTree(value=v)\n".toList := by decide +kernel
example : ((Tree.printedL (fun i => i != 1) 0 0 (demo.tree 0).kids).map fun l => (l.level, l.nr, l.item.id)) = [(0, 0, 2), (0, 1, 3), (0, 2, 5)] := by decide +kernel

end ITree
