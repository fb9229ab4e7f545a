import Verif.Spec.Links
/-
Lemmas about loading links.
-/
namespace ITree

/-- what the loop builds from the items in the order it meets them -/
def chainUp : List Tree → List Tree
  | [] => []
  | x :: xs => match x.kids with
    | [] => linkClone x [] :: chainUp xs
    | _ :: _ => [linkClone x (chainUp xs)]

/-- the items still to come -/
def pend : List LFr → List Tree
  | [] => []
  | .it l :: r => Tree.preL l ++ pend r
  | .none :: r => pend r

theorem pre_eq (x : Tree) : Tree.pre x = x :: Tree.preL x.kids := by cases x; rfl

theorem addKid_assemble (x : Tree) (items : List (Tree × List Tree)) (h : items ≠ []) (acc : List Tree) : assemble (addKid x items) acc = assemble items (x :: acc) := by
  cases items with
  | nil => exact absurd rfl h
  | cons p r => obtain ⟨p, ks⟩ := p; simp [addKid, assemble]

theorem addKid_ne (x : Tree) (items : List (Tree × List Tree)) (h : items ≠ []) : addKid x items ≠ [] := by
  cases items with
  | nil => exact absurd rfl h
  | cons p r => simp [addKid]

theorem convStep_inv {s s' : ConvSt} (h : convStep s = some s') (hi : s.items ≠ []) :
    s'.items ≠ [] ∧ assemble s'.items (chainUp (pend s'.its)) = assemble s.items (chainUp (pend s.its)) ∧
    3 * (pend s'.its).length + s'.its.length < 3 * (pend s.its).length + s.its.length := by
  unfold convStep at h
  split at h
  · simp at h
  · rename_i st he
    simp only [Option.some.injEq] at h; subst h
    refine ⟨hi, ?_, ?_⟩
    · simp [he, pend, Tree.preL]
    · simp [he, pend, Tree.preL]
  · rename_i st he
    simp only [Option.some.injEq] at h; subst h
    exact ⟨hi, by simp [he, pend], by simp [he, pend]⟩
  · rename_i x xs st he
    split at h
    · rename_i hk
      simp only [Option.some.injEq] at h; subst h
      refine ⟨addKid_ne _ _ hi, ?_, ?_⟩
      · rw [addKid_assemble _ _ hi, he]
        simp [pend, Tree.preL, pre_eq, hk, chainUp]
      · rw [he]; simp [pend, Tree.preL, pre_eq, hk]
    · rename_i k ks hk
      simp only [Option.some.injEq] at h; subst h
      refine ⟨by simp, ?_, ?_⟩
      · rw [he]
        have : pend (.it (x :: xs) :: st) = x :: (pend (.it (k :: ks) :: .none :: .it xs :: st)) := by simp [pend, Tree.preL, pre_eq, hk]
        rw [this]
        simp only [assemble, chainUp, hk, List.nil_append]
      · rw [he]
        have : pend (.it (x :: xs) :: st) = x :: (pend (.it (k :: ks) :: .none :: .it xs :: st)) := by simp [pend, Tree.preL, pre_eq, hk]
        rw [this]
        simp; omega

theorem convRun_spec (n : Nat) : ∀ s : ConvSt, s.items ≠ [] → 3 * (pend s.its).length + s.its.length ≤ n →
    ∃ s', convRun n s = some s' ∧ assemble s'.items [] = assemble s.items (chainUp (pend s.its)) := by
  induction n with
  | zero =>
    intro s hi hm
    have : s.its = [] := List.length_eq_zero_iff.1 (by omega)
    exact ⟨s, by simp [convRun, this], by simp [this, pend, chainUp]⟩
  | succ n ih =>
    intro s hi hm
    cases hs : convStep s with
    | none =>
      have : s.its = [] := by
        unfold convStep at hs
        split at hs <;> try simp at hs
        · assumption
        · split at hs <;> simp at hs
      exact ⟨s, by simp [convRun, hs], by simp [this, pend, chainUp]⟩
    | some s1 =>
      obtain ⟨h1, h2, h3⟩ := convStep_inv hs hi
      obtain ⟨s', h4, h5⟩ := ih s1 h1 (by omega)
      exact ⟨s', by simp [convRun, hs, h4], by rw [h5, h2]⟩

theorem convert_eq (T : Tree) (hl : T.flags.has Flags.linked = false) (n : Nat) (hn : 3 * (Tree.preL T.kids).length + 1 ≤ n) :
    convert n T = some [linkClone T (chainUp (Tree.preL T.kids))] := by
  unfold convert
  rw [if_neg (by simp [hl])]
  cases hk : T.kids with
  | nil => simp [Tree.preL, chainUp]
  | cons k ks =>
    rw [hk] at hn
    obtain ⟨s', h1, h2⟩ := convRun_spec n ⟨[(T, [])], [.it (k :: ks)]⟩ (by simp) (by simpa [pend] using hn)
    simp only [h1, Option.map, h2]
    simp [assemble, pend]

theorem mirror_eq (T : Tree) : T.linkedCopy = linkClone T (Tree.linkedCopyL T.kids) := by cases T; rfl

theorem linkClone_inj {a b : Tree} {ks ls : List Tree} (h : linkClone a ks = linkClone b ls) : ks = ls := by
  unfold linkClone at h; injection h

theorem lastOnly_eq (T : Tree) : T.LastOnly = Tree.LastOnlyL T.kids := by cases T; rfl

mutual
/-- nesting depth of a tree -/
def Tree.ht : Tree → Nat
  | .node _ _ _ _ _ ks => Tree.htL ks + 1
def Tree.htL : List Tree → Nat
  | [] => 0
  | k :: ks => max k.ht (Tree.htL ks)
end

theorem ht_eq (T : Tree) : T.ht = Tree.htL T.kids + 1 := by cases T; rfl

/-- the loop reproduces the structure exactly for trees in which only last siblings have children -/
theorem chainUp_iff (n : Nat) : ∀ ts : List Tree, Tree.htL ts ≤ n → (chainUp (Tree.preL ts) = Tree.linkedCopyL ts ↔ Tree.LastOnlyL ts) := by
  induction n with
  | zero =>
    intro ts h
    cases ts with
    | nil => simp [Tree.preL, chainUp, Tree.linkedCopyL, Tree.LastOnlyL]
    | cons k ks => rw [Tree.htL, ht_eq] at h; omega
  | succ n ih =>
    intro ts
    induction ts with
    | nil => intro _; simp [Tree.preL, chainUp, Tree.linkedCopyL, Tree.LastOnlyL]
    | cons k ks ihs =>
      intro h
      rw [Tree.htL, ht_eq] at h
      have hks := ihs (by omega)
      simp only [Tree.preL, pre_eq, List.cons_append, chainUp, Tree.linkedCopyL, Tree.LastOnlyL]
      cases hk : k.kids with
      | nil =>
        simp only [Tree.preL, List.nil_append, mirror_eq, hk, Tree.linkedCopyL, List.cons.injEq, true_and]
        rw [hks]
        by_cases he : ks = []
        · subst he; simp [Tree.LastOnlyL, lastOnly_eq, hk]
        · rw [if_neg he]
      | cons c cs =>
        simp only [mirror_eq, hk]
        constructor
        · intro he
          injection he with h1 h2
          have hks0 : ks = [] := by cases ks with
            | nil => rfl
            | cons _ _ => simp [Tree.linkedCopyL] at h2
          subst hks0
          rw [if_pos rfl, lastOnly_eq, hk]
          have := linkClone_inj h1
          simp only [Tree.preL, List.append_nil] at this
          exact (ih (c :: cs) (by rw [hk] at h; omega)).1 (by simpa [Tree.preL] using this)
        · intro hL
          by_cases he : ks = []
          · subst he
            rw [if_pos rfl, lastOnly_eq, hk] at hL
            have := (ih (c :: cs) (by rw [hk] at h; omega)).2 hL
            simp only [Tree.linkedCopyL, Tree.preL, List.append_nil] at this ⊢
            rw [this]
          · rw [if_neg he] at hL; simp at hL

theorem clone_kids (x : Tree) (ks : List Tree) : (linkClone x ks).kids = ks := rfl

/-- the items in deep order are the same whatever the structure -/
theorem pre_chainUp (l : List Tree) : (Tree.preL (chainUp l)).map (fun x => (x.id, x.tag, x.value, x.flags)) = l.map fun x => (x.id, x.tag, x.value, x.flags ||| Flags.linked) := by
  induction l with
  | nil => rfl
  | cons x xs ih =>
    simp only [chainUp]
    cases x.kids with
    | nil => simp only [Tree.preL, pre_eq, clone_kids, List.nil_append, List.cons_append, List.map_cons, ih]; rfl
    | cons c cs => simp only [Tree.preL, pre_eq, clone_kids, List.append_nil, List.map_cons, ih]; rfl

/-! ### the order of the children -/

theorem collect_stands {α : Type} (inSrc : LKey → Bool) (key : LKey) (E : List (LEntry α)) (hE : key ∈ E.map (·.1)) : ∀ acc : List (LKey × LOut α), acc.filterMap (fun p => p.2.stands) = [] →
    (collect inSrc key E acc).filterMap (fun p => p.2.stands) = [key] := by
  induction E with
  | nil => simp at hE
  | cons e r ih =>
    obtain ⟨k, i⟩ := e
    intro acc ha
    rw [collect]
    by_cases hk : k = key
    · subst hk
      rw [if_pos rfl, List.filterMap_append, ha]
      cases i <;> rfl
    · have hr : key ∈ r.map (·.1) := by
        rcases List.mem_cons.1 hE with h | h
        · exact absurd h.symm hk
        · exact h
      rw [if_neg hk]
      split
      · exact ih hr [] rfl
      · cases i with
        | none => exact ih hr acc ha
        | some x => exact ih hr _ (by rw [addLocal, List.filterMap_append, ha]; rfl)

/-- the entries collected for a key form a sublist of the local items (the skipped placeholders left out) -/
theorem collect_sub {α : Type} (inSrc : LKey → Bool) (key : LKey) (E : List (LEntry α)) (hE : key ∈ E.map (·.1)) : ∀ (acc : List (LKey × LOut α)),
    ∃ (A : List (LEntry α)) (B : Bool), A.Sublist E ∧ (collect inSrc key E acc).map (·.1) = (if B then acc.map (·.1) else []) ++ A.map (·.1) ∧
      (collect inSrc key E acc).filterMap (fun p => p.2.kept) = (if B then acc.filterMap (fun p => p.2.kept) else []) ++ A.filterMap (·.2) := by
  induction E with
  | nil => simp at hE
  | cons e r ih =>
    obtain ⟨k, i⟩ := e
    intro acc
    rw [collect]
    by_cases hk : k = key
    · subst hk
      rw [if_pos rfl]
      refine ⟨[(k, i)], true, by simp, by simp, ?_⟩
      cases i <;> simp [LOut.kept, entryOut]
    · have hr : key ∈ r.map (·.1) := by
        rcases List.mem_cons.1 hE with h | h
        · exact absurd h.symm hk
        · exact h
      rw [if_neg hk]
      split
      · obtain ⟨A, B, h1, h2, h3⟩ := ih hr []
        refine ⟨A, false, h1.trans (List.sublist_cons_self _ _), ?_, ?_⟩
        · rw [h2]; cases B <;> simp
        · rw [h3]; cases B <;> simp
      · cases i with
        | none =>
          obtain ⟨A, B, h1, h2, h3⟩ := ih hr acc
          exact ⟨A, B, h1.trans (List.sublist_cons_self _ _), h2, h3⟩
        | some x =>
          obtain ⟨A, B, h1, h2, h3⟩ := ih hr (acc ++ [(k, .old x k false)])
          simp only [addLocal]
          cases B with
          | false => exact ⟨A, false, h1.trans (List.sublist_cons_self _ _), by simpa using h2, by simpa using h3⟩
          | true => exact ⟨(k, some x) :: A, true, h1.cons_cons _, by simpa using h2, by rw [h3]; simp [LOut.kept]⟩

theorem filter_sublist_keys {α : Type} {A E : List (LEntry α)} (h : A.Sublist E) (hn : (E.map (·.1)).Nodup) : (E.filter fun e => decide (e.1 ∈ A.map (·.1))) = A := by
  induction h with
  | slnil => rfl
  | @cons A E a h ih =>
    simp only [List.map_cons, List.nodup_cons] at hn
    have : a.1 ∉ A.map (·.1) := fun hm => hn.1 ((h.map _).subset hm)
    rw [List.filter_cons, if_neg (by simpa using this)]
    exact ih hn.2
  | @cons_cons A E a h ih =>
    simp only [List.map_cons, List.nodup_cons] at hn
    rw [List.filter_cons, if_pos (by simp)]
    congr 1
    rw [← ih hn.2]
    apply List.filter_congr
    intro e he
    have : e.1 ≠ a.1 := fun heq => hn.1 (heq ▸ List.mem_map.2 ⟨e, he, rfl⟩)
    rw [ih hn.2]
    simp [this]

theorem mergeLoop_kept {α : Type} (inSrc : LKey → Bool) (src : List LKey) : ∀ E : List (LEntry α), (E.map (·.1)).Nodup →
    ((mergeLoop inSrc src E).filterMap LOut.kept).Perm (E.filterMap (·.2)) := by
  induction src with
  | nil =>
    intro E _
    simp only [mergeLoop, List.filterMap_filterMap]
    rw [show (fun x : LEntry α => (x.2.map fun y => (LOut.old y x.1 false : LOut α)).bind LOut.kept) = fun x => x.2 by funext x; cases x.2 <;> rfl]
  | cons key rest ih =>
    intro E hn
    rw [mergeLoop]
    split
    · rename_i hk
      obtain ⟨A, B, h1, h2, h3⟩ := collect_sub inSrc key E hk []
      have e2 : (collect inSrc key E []).map (·.1) = A.map (·.1) := by rw [h2]; cases B <;> simp
      have e3 : (collect inSrc key E []).filterMap (fun p => p.2.kept) = A.filterMap (·.2) := by rw [h3]; cases B <;> simp
      simp only [List.filterMap_append, List.filterMap_map]
      rw [show (LOut.kept ∘ fun x : LKey × LOut α => x.2) = fun p => p.2.kept from rfl, e3, e2]
      have hsub : (removeKeys (A.map (·.1)) E).Sublist E := List.filter_sublist
      refine (List.Perm.append_left _ (ih _ ((hsub.map _).nodup hn))).trans ?_
      have hA := filter_sublist_keys h1 hn
      rw [← List.filterMap_append]
      apply List.Perm.filterMap
      have := List.filter_append_perm (fun e : LEntry α => decide (e.1 ∈ A.map (·.1))) E
      rw [hA] at this
      refine List.Perm.trans ?_ this
      simp only [removeKeys]
      apply List.Perm.append_left
      rw [show (fun e : LEntry α => decide (e.1 ∉ A.map (·.1))) = fun e => !decide (e.1 ∈ A.map (·.1)) by funext e; simp]
    · simp only [List.filterMap_cons, LOut.kept]
      exact ih E hn

theorem mergeLoop_stands {α : Type} (inSrc : LKey → Bool) (src : List LKey) : ∀ E : List (LEntry α), (mergeLoop inSrc src E).filterMap LOut.stands = src := by
  induction src with
  | nil =>
    intro E
    simp only [mergeLoop, List.filterMap_filterMap]
    rw [List.filterMap_eq_nil_iff]
    intro e _
    cases e.2 <;> rfl
  | cons key rest ih =>
    intro E
    rw [mergeLoop]
    split
    · rename_i hk
      simp only [List.filterMap_append, List.filterMap_map]
      rw [show (LOut.stands ∘ fun x : LKey × LOut α => x.2) = fun p => p.2.stands from rfl, collect_stands inSrc key E hk [] rfl, ih]
      rfl
    · simp [LOut.stands, ih]

theorem localEntries_keys {α : Type} (l : List (LKey × Bool × α)) : ∀ b, (localEntries b l).map (·.1) = l.map (·.1) := by
  induction l with
  | nil => intro b; rfl
  | cons e r ih =>
    obtain ⟨k, lk, x⟩ := e
    intro b
    simp only [localEntries]
    split <;> simp [ih]

theorem localEntries_sub {α : Type} (l : List (LKey × Bool × α)) : ∀ b, ((localEntries b l).filterMap (·.2)).Sublist (l.map (·.2.2)) := by
  induction l with
  | nil => intro b; simp [localEntries]
  | cons e r ih =>
    obtain ⟨k, lk, x⟩ := e
    intro b
    simp only [localEntries]
    split
    · exact (ih _).trans (List.sublist_cons_self _ _)
    · exact (ih _).cons_cons _

theorem localEntries_locals {α : Type} (l : List (LKey × Bool × α)) : ∀ b, ∀ k x, (k, false, x) ∈ l → (k, some x) ∈ localEntries b l := by
  induction l with
  | nil => intro b k x h; simp at h
  | cons e r ih =>
    obtain ⟨k', lk, y⟩ := e
    intro b k x h
    simp only [localEntries]
    rcases List.mem_cons.1 h with h | h
    · cases h; simp
    · split
      · exact List.mem_cons_of_mem _ (ih _ _ _ h)
      · exact List.mem_cons_of_mem _ (ih _ _ _ h)

/-- a key of the source is only collected when it is its turn -/
theorem collect_keys {α : Type} (inSrc : LKey → Bool) (key : LKey) (E : List (LEntry α)) : ∀ acc : List (LKey × LOut α), (∀ p ∈ acc, inSrc p.1 = false) → ∀ p ∈ collect inSrc key E acc, p.1 = key ∨ inSrc p.1 = false := by
  induction E with
  | nil => intro acc ha p hp; exact .inr (ha p hp)
  | cons e r ih =>
    obtain ⟨k, i⟩ := e
    intro acc ha p hp
    rw [collect] at hp
    split at hp
    · rename_i hk
      rcases List.mem_append.1 hp with h | h
      · exact .inr (ha p h)
      · simp at h; subst h; exact .inl hk
    · split at hp
      · exact ih [] (by simp) p hp
      · rename_i hs
        cases i with
        | none => exact ih acc ha p hp
        | some x =>
          refine ih _ ?_ p hp
          intro q hq
          rcases List.mem_append.1 hq with h | h
          · exact ha q h
          · simp at h; subst h; simpa using hs

theorem collect_mem {α : Type} (inSrc : LKey → Bool) (key : LKey) (x : α) (E : List (LEntry α)) (hn : (E.map (·.1)).Nodup) (hx : (key, some x) ∈ E) : ∀ acc, (key, LOut.old x key true) ∈ collect inSrc key E acc := by
  induction E with
  | nil => simp at hx
  | cons e r ih =>
    obtain ⟨k, i⟩ := e
    simp only [List.map_cons, List.nodup_cons] at hn
    intro acc
    rw [collect]
    rcases List.mem_cons.1 hx with h | h
    · cases h; rw [if_pos rfl]; simp [entryOut]
    · have : k ≠ key := fun he => hn.1 (he ▸ List.mem_map.2 ⟨_, h, rfl⟩)
      rw [if_neg this]
      split
      · exact ih hn.2 h _
      · cases i <;> exact ih hn.2 h _

theorem mergeLoop_cover {α : Type} (inSrc : LKey → Bool) (k : LKey) (x : α) (hk : inSrc k = true) (src : List LKey) (hs : k ∈ src) : ∀ E : List (LEntry α), (E.map (·.1)).Nodup → (k, some x) ∈ E →
    LOut.old x k true ∈ mergeLoop inSrc src E := by
  induction src with
  | nil => simp at hs
  | cons key rest ih =>
    intro E hn hx
    rw [mergeLoop]
    by_cases he : k = key
    · subst he
      rw [if_pos (List.mem_map.2 ⟨_, hx, rfl⟩)]
      exact List.mem_append_left _ (List.mem_map.2 ⟨_, collect_mem inSrc k x E hn hx [], rfl⟩)
    · have hs' : k ∈ rest := by
        rcases List.mem_cons.1 hs with h | h
        · exact absurd h he
        · exact h
      split
      · apply List.mem_append_right
        refine ih hs' _ (((List.filter_sublist (l := E)).map _).nodup hn) ?_
        refine List.mem_filter.2 ⟨hx, ?_⟩
        simp only [decide_eq_true_eq]
        intro hm
        obtain ⟨p, hp, hpk⟩ := List.mem_map.1 hm
        rcases collect_keys inSrc key E [] (by simp) p hp with h | h
        · exact he (hpk.symm.trans h)
        · rw [hpk, hk] at h; simp at h
      · exact List.mem_cons_of_mem _ (ih hs' E hn hx)

end ITree
