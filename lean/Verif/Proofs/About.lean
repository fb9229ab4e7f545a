import Verif.Model.About
import Verif.Spec.About
import Verif.Props.Deep
import Verif.Proofs.Climb
/-
Lemmas for C77.
-/
namespace ITree

theorem depth_child' {h : Heap} (W : WF h) (F : Forest h) {p c : Id} (hc : c ∈ h.kids p) : (h.tree c).depth < (h.tree p).depth := by
  have Rp := tree_rep W F p
  have hk : c ∈ (h.tree p).kids.map Tree.id := by
    rw [← Rp.kids, tree_id]; exact hc
  obtain ⟨k, hk, e⟩ := List.mem_map.1 hk
  have hkt : h.tree c = k := by rw [← e]; exact (Rp.kid hk).tree W
  rw [hkt]
  cases ht : h.tree p with
  | node i t v f l ks =>
    rw [ht] at hk
    simp only [Tree.kids] at hk
    simp only [Tree.depth]
    have := depth_le_depthL hk
    omega

theorem linkRootAux_spec {h : Heap} (W : WF h) (F : Forest h) (Z : NoZombie h) : ∀ (m : Nat) (x : Id), x < h.next → h.next ≤ (h.tree x).depth + m → h.isLinkedItem x = true →
    LinkTop h x (linkRootAux m h x) := by
  intro m
  induction m with
  | zero =>
    intro x hx hm hl
    refine ⟨.here hl, fun q hq => ?_⟩
    have hc := Z x q hq
    have h1 := depth_child' W F hc
    have h2 := (tree_rep W F q).depth_le W (by rw [tree_id]; exact kids_lt_next W hc)
    omega
  | succ m ih =>
    intro x hx hm hl
    cases hp : h.par x with
    | none =>
      simp only [linkRootAux, hp]
      exact ⟨.here hl, fun q hq => by rw [hp] at hq; cases hq⟩
    | some p =>
      have hc := Z x p hp
      have h1 := depth_child' W F hc
      by_cases hlp : h.isLinkedItem p = true
      · obtain ⟨a, b⟩ := ih p (kids_lt_next W hc) (by omega) hlp
        simp only [linkRootAux, hp, hlp, if_true]
        exact ⟨.up hl hp a, b⟩
      · have : linkRootAux (m + 1) h x = x := by simp only [linkRootAux, hp, hlp]; rfl
        rw [this]
        refine ⟨.here hl, fun q hq => ?_⟩
        rw [hp] at hq; cases hq
        simpa [Heap.isLinkedItem] using hlp

theorem LinkedUp.linked {h : Heap} {x r : Id} (L : LinkedUp h x r) : (h.flags x).has Flags.linked = true := by
  cases L <;> assumption

theorem LinkTop.unique {h : Heap} {x r s : Id} (A : LinkTop h x r) (B : LinkTop h x s) : r = s := by
  obtain ⟨a, a'⟩ := A
  induction a with
  | here hl =>
    cases B.1 with
    | here _ => rfl
    | up _ hp L => have := a' _ hp; rw [L.linked] at this; cases this
  | up hl hp L ih =>
    cases B.1 with
    | here _ => have := B.2 _ hp; rw [L.linked] at this; cases this
    | up _ hp' L' => rw [hp] at hp'; cases hp'; exact ih ⟨L', B.2⟩ a'

theorem anySome_eq {α : Type} {f : α → Option Bool} {g : α → Bool} : ∀ l : List α, (∀ a ∈ l, f a = some (g a)) → anySome f l = some (l.any g) := by
  intro l
  induction l with
  | nil => intro _; rfl
  | cons a l ih =>
    intro H
    rw [anySome, H a (by simp)]
    have ih' := ih fun b hb => H b (List.mem_cons_of_mem _ hb)
    rw [List.any_cons]
    cases g a with
    | true => rfl
    | false => exact ih'

theorem below_depth {h : Heap} (W : WF h) (F : Forest h) {x y : Id} (b : Below h x y) : y = x ∨ (h.tree y).depth < (h.tree x).depth := by
  induction b with
  | refl => exact .inl rfl
  | step _ hc ih =>
    have := depth_child' W F hc
    rcases ih with rfl | ih
    · exact .inr this
    · exact .inr (by omega)

theorem uniform {α : Type} {P : α → Nat → Prop} : ∀ l : List α, (∀ a ∈ l, ∃ N, ∀ n, N ≤ n → P a n) → ∃ N, ∀ a ∈ l, ∀ n, N ≤ n → P a n := by
  intro l
  induction l with
  | nil => intro _; exact ⟨0, by simp⟩
  | cons a l ih =>
    intro H
    obtain ⟨N, hN⟩ := ih fun b hb => H b (List.mem_cons_of_mem _ hb)
    obtain ⟨M, hM⟩ := H a (by simp)
    refine ⟨max N M, fun b hb n hn => ?_⟩
    rcases List.mem_cons.1 hb with rfl | hb
    · exact hM n (by omega)
    · exact hN b hb n (by omega)

open Classical in
theorem isLinkLoaded_spec {h : Heap} (W : WF h) (F : Forest h) : ∀ (d : Nat) (x : Id), (h.tree x).depth ≤ d → Delivers (fun n => isLinkLoaded n h x) (decide (LinkLoaded h x)) := by
  intro d
  induction d using Nat.strong_induction_on with
  | _ d ih =>
    intro x hd
    cases hl : (h.node x).link with
    | some lk =>
      refine ⟨1, fun n hn => ?_⟩
      obtain ⟨m, rfl⟩ : ∃ m, n = m + 1 := ⟨n - 1, by omega⟩
      simp only [isLinkLoaded, hl, Option.some.injEq]
      rw [Bool.eq_iff_iff, decide_eq_true_iff]
      simp [LinkLoaded, hl]
    | none =>
      have R := tree_rep W F x
      obtain ⟨N1, hN1⟩ := C26_preorder R
      rw [tree_id] at hN1
      have hmem : ∀ y, y ∈ (h.tree x).deep.map Tree.id ↔ Below h x y ∧ y ≠ x := by
        intro y
        have := mem_idsL_kids W F R y
        rwa [tree_id] at this
      obtain ⟨N2, hN2⟩ := uniform (P := fun i n => isLinkLoaded n h i = some (decide (LinkLoaded h i))) (((h.tree x).deep.map Tree.id).filter fun i => h.isLinkRoot i) (by
        intro i hi
        have hb := (hmem i).1 (List.mem_of_mem_filter hi)
        have hlt := (below_depth W F hb.1).resolve_left hb.2
        exact ih (h.tree i).depth (by omega) i (Nat.le_refl _))
      refine ⟨N1 + N2 + 1, fun n hn => ?_⟩
      obtain ⟨m, rfl⟩ : ∃ m, n = m + 1 := ⟨n - 1, by omega⟩
      simp only [isLinkLoaded, hl, hN1 m (by omega)]
      rw [anySome_eq _ fun i hi => hN2 i hi m (by omega), Option.some.injEq, Bool.eq_iff_iff, decide_eq_true_iff, List.any_eq_true]
      simp only [List.mem_filter, hmem, decide_eq_true_eq]
      constructor
      · rintro ⟨i, ⟨⟨b, hne⟩, hr⟩, ⟨lk, e, ht⟩ | ⟨-, y, b', hne', hr', hy⟩⟩
        · exact .inr ⟨hl, i, b, hne, hr, lk, e, ht⟩
        · refine .inr ⟨hl, y, b.trans b', ?_, hr', hy⟩
          rintro rfl
          have h1 := (below_depth W F b).resolve_left hne
          have h2 := (below_depth W F b').resolve_left hne'
          omega
      · rintro (⟨lk, e, -⟩ | ⟨-, y, b, hne, hr, hy⟩)
        · rw [hl] at e; cases e
        · exact ⟨y, ⟨⟨b, hne⟩, hr⟩, .inl hy⟩

end ITree
