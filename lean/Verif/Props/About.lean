import Verif.Proofs.About
import Verif.Props.LoadLinks
import Verif.Props.Repr
import Verif.Props.FindLink
/-
C77: what items and options tell about themselves.
-/
namespace ITree

/-- C77. `flags_repr()` shows the names of exactly the flags that are set, in a fixed order, separated by `|`; without `public_only` also the internal ones. -/
theorem C77_flags_repr : ∀ (f : Flags) (publicOnly : Bool),
    flagsRepr f publicOnly = ['|'].intercalate (((flagTable publicOnly).filter fun e => f.has e.1).map fun e => e.2.toList) := by decide +kernel

/-- C77. The text with all flags tells the flags. -/
theorem C77_flags_repr_injective : ∀ f g : Flags, flagsRepr f false = flagsRepr g false → f = g := by decide +kernel

/-- C77. `x.link_root` is the highest linked item above a linked item `x` (all items on the way linked), for the others it is None. -/
theorem C77_link_root {h : Heap} (W : WF h) (F : Forest h) (Z : NoZombie h) {x : Id} (hx : x < h.next) (r : Id) : h.linkRootOf x = some r ↔ LinkTop h x r := by
  unfold Heap.linkRootOf
  by_cases hl : h.isLinkedItem x = true
  · rw [if_pos hl, Option.some.injEq]
    have := linkRootAux_spec W F Z h.next x hx (by omega) hl
    exact ⟨fun e => e ▸ this, fun L => this.unique L⟩
  · rw [if_neg hl]
    simp only [reduceCtorEq, false_iff]
    exact fun L => hl L.1.linked

/-- C77 (defect). The documentation of `link_root` says that an item that is not linked delivers itself; it delivers None. -/
theorem C77_link_root_wrong (h : Heap) (x : Id) (hl : (h.flags x).has Flags.linked = false) : h.linkRootOf x = none := by
  simp [Heap.linkRootOf, Heap.isLinkedItem, hl]

theorem noZombie_of_lt {h : Heap} (W : WF h) (H : ∀ c < h.next, (h.par c).all (fun p => decide (c ∈ h.kids p)) = true) : NoZombie h := by
  intro c p e
  by_cases hc : c < h.next
  · have := H c hc
    rw [e] at this
    simpa using this
  · simp [Heap.par, (W.fresh c (by omega)).2] at e

/-- the loaded link root `L(P(Q(U), S), R)` meets the hypotheses: the highest linked item above `U` (3) is `P` (1) -/
example : WF linkHeap ∧ Forest linkHeap ∧ NoZombie linkHeap ∧ 3 < linkHeap.next ∧ linkHeap.linkRootOf 3 = some 1 ∧ linkHeap.linkRootOf 0 = none :=
  ⟨linkHeap_wf, linkHeap_forest, noZombie_of_lt linkHeap_wf (by decide +kernel), by decide +kernel, by decide +kernel, by decide +kernel⟩

/-- C77. `is_link_loaded`: for an item with a link whether it is loaded, for the others whether some link below is loaded. -/
theorem C77_link_loaded {h : Heap} (W : WF h) (F : Forest h) (x : Id) : ∃ b, Delivers (fun n => isLinkLoaded n h x) b ∧ (b = true ↔ LinkLoaded h x) := by
  classical
  exact ⟨_, isLinkLoaded_spec W F _ x (Nat.le_refl _), by simp⟩

/-- C77. `rindex` delivers the last position of the value and leaves the list as it was. -/
theorem C77_rindex {α : Type} (eq : α → α → Bool) (l : List α) (v : α) (hv : ∃ a ∈ l, eq a v = true) : ∃ i, rindex eq l v = (l, .ok i) ∧
    (∃ a, l[i]? = some a ∧ eq a v = true) ∧ ∀ j a, i < j → l[j]? = some a → eq a v = false := by
  have hs : ∃ i, l.reverse.findIdx? (fun a => eq a v) = some i := by
    rw [← Option.isSome_iff_exists, List.findIdx?_isSome, List.any_eq_true]
    obtain ⟨a, ha, e⟩ := hv
    exact ⟨a, by simpa using ha, e⟩
  obtain ⟨i, hi⟩ := hs
  obtain ⟨hlt, hp, hmin⟩ := List.findIdx?_eq_some_iff_getElem.1 hi
  rw [List.length_reverse] at hlt
  refine ⟨l.length - i - 1, by simp only [rindex, hi, List.reverse_reverse, List.length_reverse], ⟨l[l.length - 1 - i]'(by omega), ?_, ?_⟩, ?_⟩
  · rw [show l.length - i - 1 = l.length - 1 - i by omega, List.getElem?_eq_getElem]
  · rw [List.getElem_reverse] at hp; exact hp
  · intro j a hj ha
    obtain ⟨hjl, rfl⟩ := List.getElem?_eq_some_iff.1 ha
    have := hmin (l.length - 1 - j) (by omega)
    rw [List.getElem_reverse] at this
    have e : l.length - 1 - (l.length - 1 - j) = j := by omega
    simp only [e] at this
    simpa using this

/-- C77 (defect). If the value is not in the list `rindex` raises and leaves the list reversed. -/
theorem C77_rindex_wrong {α : Type} (eq : α → α → Bool) (l : List α) (v : α) (hv : ∀ a ∈ l, eq a v = false) : rindex eq l v = (l.reverse, .error .value) := by
  have : l.reverse.findIdx? (fun a => eq a v) = none := by simpa using hv
  simp only [rindex, this]

/-- C77. `accu_iterator` delivers, for each element, the accumulation of all elements up to it. -/
theorem C77_accu {α β : Type} (f : β → α → β) (v : β) (l : List α) : (accuIterator f v l).length = l.length ∧
    ∀ k, k < l.length → (accuIterator f v l)[k]? = some ((l.take (k + 1)).foldl f v) := by
  induction l generalizing v with
  | nil => simp [accuIterator]
  | cons a l ih =>
    refine ⟨by simp [accuIterator, (ih (f v a)).1], fun k hk => ?_⟩
    cases k with
    | zero => simp [accuIterator]
    | succ k => simpa [accuIterator] using (ih (f v a)).2 k (by simpa using hk)

/-- C77. `is_iterator_empty` answers whether nothing is left, and the iterator it returns delivers everything the given one would have. -/
theorem C77_is_empty {α : Type} (l : List α) : (isIteratorEmpty l).2 = l ∧ ((isIteratorEmpty l).1 = true ↔ l = []) := by
  cases l <;> simp [isIteratorEmpty]

/-- C77 (in part). `getter_to_list` makes a list of one item or of all delivered items. -/
theorem C77_to_list_partial (r : GetRes) : getterToList (some r) = .ok (match r with | .one x => [x] | .many l => l) := by cases r <;> rfl
/-- C77 (defect). For "no item" (a default None) an empty list is documented; it raises TypeError. -/
theorem C77_to_list_wrong : getterToList none = .error .type := rfl

/-- C77. `valid_option` accepts exactly the options that are all expected ones. -/
theorem C77_valid_option (o e : Nat) : validOption o e = none ↔ ∀ i, o.testBit i = true → e.testBit i = true := by
  unfold validOption
  simp only [ite_eq_left_iff, reduceCtorEq, imp_false, not_not]
  constructor
  · intro H i hi
    have := Nat.testBit_ldiff o e i
    rw [H, Nat.zero_testBit, hi] at this
    simpa using this
  · intro H
    refine Nat.eq_of_testBit_eq fun i => ?_
    rw [Nat.testBit_ldiff, Nat.zero_testBit]
    cases ho : o.testBit i with
    | false => rfl
    | true => simp [H i ho]

/-- C77 (in part). The text of options without DOWN lists exactly the names of the options. -/
theorem C77_option_str_partial : ∀ o < 64, o.testBit 0 = false → optionStr o = barJoin ((optionNames.filter fun e => o.testBit e.1).map fun e => e.2.toList) := by decide +kernel
/-- C77 (defect). DOWN, a valid option, is shown a second time as an unknown one. -/
theorem C77_option_str_wrong : validOption 1 0b111111 = none ∧ optionStr 1 = "DOWN | 0b1".toList := by decide +kernel

theorem closeRepr_tail (A : List (List Char)) (p : List Char) (hp : p ≠ [',']) : closeRepr (A ++ [p, [',', ' ']]) = (A ++ [p]).flatten ++ [')'] := by
  have e : A ++ [p, [',', ' ']] = (A ++ [p]) ++ [[',', ' ']] := by simp
  unfold closeRepr
  rw [e, List.getLast?_concat, List.dropLast_concat]
  simp only [if_true]
  rw [List.getLast?_concat, if_neg (by simpa using hp)]

theorem closeRepr_flags (A : List (List Char)) (c d : Char) (r : List Char) (hc : c ≠ ',') : closeRepr (A ++ [c :: d :: r]) = (A ++ [c :: d :: r]).flatten ++ [')'] := by
  unfold closeRepr
  rw [List.getLast?_concat, if_neg (by simp [hc])]
  simp only []
  rw [List.getLast?_concat, if_neg (by simp)]

/-- the pieces before the flags may be joined -/
theorem closeRepr_join (A : List (List Char)) (p q : List Char) (L : Literals) (c : List Char) (f : Flags) (l : Option LinkSt) (hq : q ≠ [',']) (hpq : p ++ q ≠ [',']) :
    closeRepr (A ++ [p ++ q, [',', ' ']] ++ reprTail L c f l) = closeRepr (A ++ [p, q, [',', ' ']] ++ reprTail L c f l) := by
  cases l with
  | some lk =>
    have hl : ∀ z : List Char, "link=iTLink(".toList ++ z ≠ [','] := fun z e => by
      have := congrArg List.head? e; simp at this
    have hl' : ∀ z z' : List Char, ("link=iTLink(link_item=".toList ++ z) ++ z' ≠ [','] := fun z z' e => by
      have := congrArg List.head? e; simp at this
    simp only [reprTail, reprLink, reprFlags]
    generalize hw : (if lk.cover.isSome then "link=iTLink(link_item=".toList ++ c else "link=iTLink(".toList ++ L.linkRepr lk.file lk.path) ++ [')'] = w
    have hw' : w ≠ [','] := by
      subst hw
      split
      · exact hl' _ _
      · rw [List.append_assoc]; exact hl _
    have key : ∀ F : Flags, closeRepr (A ++ [p ++ q, [',', ' ']] ++ ([w, [',', ' ']] ++ if F = 0#6 then [] else ["flags=0b".toList ++ flagDigits F.toNat])) =
        closeRepr (A ++ [p, q, [',', ' ']] ++ ([w, [',', ' ']] ++ if F = 0#6 then [] else ["flags=0b".toList ++ flagDigits F.toNat])) := fun F => by
      by_cases hF : F = 0#6
      · rw [if_pos hF, List.append_nil, closeRepr_tail _ _ hw', closeRepr_tail _ _ hw']; simp
      · rw [if_neg hF]
        have : "flags=0b".toList ++ flagDigits F.toNat = 'f' :: 'l' :: ("ags=0b".toList ++ flagDigits F.toNat) := rfl
        rw [this, ← List.append_assoc, ← List.append_assoc, closeRepr_flags _ _ _ _ (by decide), closeRepr_flags _ _ _ _ (by decide)]
        simp
    exact key _
  | none =>
    show closeRepr (A ++ [p ++ q, [',', ' ']] ++ if f = 0#6 then [] else ["flags=0b".toList ++ flagDigits f.toNat]) = closeRepr (A ++ [p, q, [',', ' ']] ++ if f = 0#6 then [] else ["flags=0b".toList ++ flagDigits f.toNat])
    have e : A ++ [p, q, [',', ' ']] = (A ++ [p]) ++ [q, [',', ' ']] := by simp
    by_cases hF : f = 0#6
    · rw [if_pos hF, List.append_nil, List.append_nil, closeRepr_tail _ _ hpq, e, closeRepr_tail _ _ hq]; simp
    · rw [if_neg hF]
      have : "flags=0b".toList ++ flagDigits f.toNat = 'f' :: 'l' :: ("ags=0b".toList ++ flagDigits f.toNat) := rfl
      rw [this, closeRepr_flags _ _ _ _ (by decide), closeRepr_flags _ _ _ _ (by decide)]
      simp

/-- no children besides one, on every level -/
def Chain (h : Heap) (x : Id) : Prop := ∀ y, Below h x y → (h.kids y).length ≤ 1

/-- C77. If no item has more than one child, `str(x)` is the same text as `repr(x)`. -/
theorem C77_str_chain (L : Literals) (lim : Nat) (h : Heap) : ∀ (n : Nat) (x : Id), Chain h x → strItem L lim h n x = reprItem L lim h n x := by
  intro n
  induction n with
  | zero => intro x _; rfl
  | succ n ih =>
    intro x hx
    simp only [strItem, reprItem]
    congr 1
    funext c
    split
    · rfl
    split
    · rfl
    have h1 := hx x .refl
    cases hk : h.kids x with
    | nil => contradiction
    | cons c r =>
      rw [hk] at h1
      obtain rfl : r = [] := by simpa using h1
      have hc : Chain h c := fun y b => hx y ((Below.step .refl (by rw [hk]; simp)).trans b)
      simp only [allSome, ih c hc]
      cases reprItem L lim h n c with
      | none => rfl
      | some a =>
        have hs : "subtree=[".toList = "subtree=".toList ++ ['['] := rfl
        have e : "subtree=[".toList ++ (a ++ [']']) = "subtree=".toList ++ ('[' :: (a ++ [']'])) := by rw [hs, List.append_assoc]; rfl
        show some (closeRepr (_ ++ ["subtree=[".toList ++ (a ++ [']']), [',', ' ']] ++ _)) = some (closeRepr (_ ++ ["subtree=".toList, '[' :: (a ++ [']']), [',', ' ']] ++ _))
        rw [e, closeRepr_join _ _ _ _ _ _ _ (by simp) (by intro e; have := congrArg List.length e; simp at this)]

/-- C77. Of three or more children `str(x)` shows the first and the last only: the ones between do not matter. -/
theorem C77_str_ends (L : Literals) (lim n : Nat) {h h' : Heap} {x x' a b a' b' : Id} {m m' : List Id} (hk : h.kids x = a :: (m ++ [b])) (hk' : h'.kids x' = a' :: (m' ++ [b'])) (hm : m ≠ []) (hm' : m' ≠ [])
    (ht : h.tag x = h'.tag x') (hv : (h.node x).value = (h'.node x').value) (hf : h.flags x = h'.flags x') (hl : h.level x = h'.level x')
    (hn : (h.node x).link = (h'.node x').link) (hc : ∀ lk, (h.node x).link = some lk → lk.cover = none) {A B : List Char}
    (ha : strItem L lim h n a = some A) (ha' : strItem L lim h' n a' = some A) (hb : strItem L lim h n b = some B) (hb' : strItem L lim h' n b' = some B)
    (d : ∀ y ∈ m, (strItem L lim h n y).isSome) (d' : ∀ y ∈ m', (strItem L lim h' n y).isSome) : strItem L lim h (n + 1) x = strItem L lim h' (n + 1) x' := by
  have key : ∀ (g : Heap) (l : List Id) (a b : Id), l ≠ [] → strItem L lim g n a = some A → strItem L lim g n b = some B → (∀ y ∈ l, (strItem L lim g n y).isSome) →
      ∃ ks, allSome (strItem L lim g n) (a :: (l ++ [b])) = some ks ∧ strKids ks = A ++ (",...,".toList ++ (B ++ [']'])) := by
    intro g l a b hl ea eb hd
    have hrest : ∃ ms : List (List Char), ms.length = l.length ∧ allSome (strItem L lim g n) (l ++ [b]) = some (ms ++ [B]) := by
      clear hl
      induction l with
      | nil => exact ⟨[], rfl, by simp [allSome, eb]⟩
      | cons y l ih =>
        obtain ⟨ms, e1, e2⟩ := ih fun z hz => hd z (List.mem_cons_of_mem _ hz)
        obtain ⟨Y, hY⟩ := Option.isSome_iff_exists.1 (hd y (by simp))
        exact ⟨Y :: ms, by simp [e1], by simp [allSome, hY, e2]⟩
    obtain ⟨ms, e1, e2⟩ := hrest
    refine ⟨A :: (ms ++ [B]), by simp [allSome, ea, e2], ?_⟩
    cases ms with
    | nil => simp at e1; exact absurd e1.symm (by simpa using hl)
    | cons c ms =>
      cases ms with
      | nil => rfl
      | cons d ms => simp only [List.cons_append, strKids, List.getLast_cons_cons]; simp
  obtain ⟨ks, e1, e2⟩ := key h m a b hm ha hb d
  obtain ⟨ks', e1', e2'⟩ := key h' m' a' b' hm' ha' hb' d'
  rw [hn] at hc
  simp only [strItem, hk, hk', e1, e1', reduceCtorEq, if_false, Option.map_some, e2, e2', ht, hv, hf, hl, hn, coverText_none hc]

/-- concrete cases -/
example : (flagsRepr 0b011001#6 true, flagsRepr 0b011001#6 false) = ("iTFLAG.READ_ONLY_TREE".toList, "iTFLAG.READ_ONLY_TREE|_iTFLAG.LINKED|_iTFLAG.PLACEHOLDER".toList) := by decide +kernel
example : isLinkLoaded 50 loadHeap 0 = some true ∧ isLinkLoaded 50 loadHeap 11 = some false ∧ isLinkLoaded 50 loadHeap 6 = some false := by decide +kernel
example : isLinkLoaded 50 farDemo 0 = some false ∧ isLinkLoaded 200 (callLoadLinks (linkEnv noFiles) false 201 200 farDemo 0 |>.elim farDemo (·.1)) 0 = some true := by decide +kernel
example : rindex (fun a b : Nat => a == b) [1, 2, 1, 3] 1 = ([1, 2, 1, 3], .ok 2) ∧ rindex (fun a b : Nat => a == b) [1, 2, 3] 5 = ([3, 2, 1], .error .value) := ⟨rfl, rfl⟩
example : accuIterator (· + ·) 10 [1, 2, 3] = [11, 13, 16] := by decide
example : optionStr 0b001110 = "UP | REVERSE | SELF".toList ∧ validOption 0b1000110 0b111111 = some "Invalid iteration option(s) given: 0b1000000".toList := by decide +kernel
/-- five children with values, the middle one differs -/
def fiveKids (v : String) : Heap := run ms0 Heap.empty ([.new (.str "r") .noValue [] 0#6] ++ ["p", "q", v, "s", "t"].map fun i => .append 0 (.val (.str i)))
example : strItem quoteLit 1000 (fiveKids "a") 9 0 = some "iTree('r', subtree=[iTree(value='p'),...,iTree(value='t')])".toList ∧
    strItem quoteLit 1000 (fiveKids "b") 9 0 = strItem quoteLit 1000 (fiveKids "a") 9 0 ∧ reprItem quoteLit 1000 (fiveKids "b") 9 0 ≠ reprItem quoteLit 1000 (fiveKids "a") 9 0 := by decide +kernel
example : strItem quoteLit 1000 reprDemo 9 3 = some "iTree('r', subtree=[iTree(value='z', subtree=[iTree('a', value='x, y', flags=0b1),iTree('b', flags=0b1)], flags=0b1),iTree(value='w')])".toList := by decide +kernel
/-- a link root, a chain -/
example : strItem quoteLit 1000 reprLinkDemo 9 2 = some "iTree('r', subtree=[iTree('k', subtree=[iTree(value='w')], link=iTLink('f.itz',[]), flags=0b100000)])".toList := by decide +kernel
/-- a chain: `demo` without siblings -/
example : Chain (run ms0 Heap.empty [.new (.str "r") .noValue [] 0#6, .append 0 (.val (.str "x")), .append 1 (.val (.str "y"))]) 0 := by
  refine below_of_tree (tidy_run (ms := ms0) _ .empty (by decide)).reach.core.wf (tidy_run (ms := ms0) _ .empty (by decide)).reach.core.forest ?_
  decide +kernel

end ITree
