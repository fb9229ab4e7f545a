import Verif.Model.Deep
import Verif.Spec.Order
import Verif.Proofs.Climb
/-
Running the generator machines.
-/
namespace ITree

/-- `k` rounds lead from `s` to `t`, yielding `out` -/
inductive Rounds {σ β : Type} (step : σ → GStep σ β) : Nat → σ → List β → σ → Prop
  | zero (s : σ) : Rounds step 0 s [] s
  | succ {k : Nat} {s s' t : σ} {o os : List β} : step s = .more o s' → Rounds step k s' os t → Rounds step (k + 1) s (o ++ os) t

section
variable {σ β : Type} {step : σ → GStep σ β}

theorem Rounds.trans {a b : Nat} {s t u : σ} {o o' : List β} (h1 : Rounds step a s o t) (h2 : Rounds step b t o' u) :
    Rounds step (a + b) s (o ++ o') u := by
  induction h1 with
  | zero s => simpa using h2
  | succ e _ ih =>
    rw [List.append_assoc, Nat.add_right_comm]
    exact .succ e (ih h2)

theorem Rounds.gen {k : Nat} {s t : σ} {o : List β} (h : Rounds step k s o t) (n : Nat) :
    ITree.gen step (n + k) s = (ITree.gen step n t).map fun r => (o ++ r.1, r.2) := by
  induction h with
  | zero s => simp
  | succ e _ ih =>
    rw [← Nat.add_assoc, ITree.gen, e]
    simp only [ih, Option.map_map]
    congr 1
    funext r; simp

/-- a run leading to the end of the generator -/
theorem Rounds.finish {k : Nat} {s t : σ} {o : List β} (h : Rounds step k s o t) (ht : step t = .done) {n : Nat} (hn : k + 1 ≤ n) :
    ITree.gen step n s = some (o, .ok t) := by
  obtain ⟨m, rfl⟩ : ∃ m, n = (m + 1) + k := ⟨n - k - 1, by omega⟩
  rw [h.gen, ITree.gen, ht]; simp

theorem Rounds.one {s t : σ} {o : List β} (e : step s = .more o t) : Rounds step 1 s o t := by
  have := Rounds.succ e (.zero t); simpa using this

/-- some number of rounds -/
def Goes (step : σ → GStep σ β) (s : σ) (o : List β) (t : σ) : Prop := ∃ k, Rounds step k s o t
theorem Goes.refl (s : σ) : Goes step s [] s := ⟨0, .zero s⟩
theorem Goes.trans {s t u : σ} {o o' : List β} (h1 : Goes step s o t) (h2 : Goes step t o' u) : Goes step s (o ++ o') u := by
  obtain ⟨a, h1⟩ := h1; obtain ⟨b, h2⟩ := h2; exact ⟨_, h1.trans h2⟩
theorem Goes.one {s t : σ} {o : List β} (e : step s = .more o t) : Goes step s o t := ⟨1, .one e⟩
theorem Goes.cons {s t u : σ} {o o' : List β} (e : step s = .more o t) (h2 : Goes step t o' u) : Goes step s (o ++ o') u := (Goes.one e).trans h2
theorem Goes.finish {s t : σ} {o : List β} (h : Goes step s o t) (ht : step t = .done) : Delivers (fun n => ITree.gen step n s) (o, .ok t) := by
  obtain ⟨k, h⟩ := h
  exact ⟨k + 1, fun n hn => h.finish ht hn⟩

end

theorem Delivers.map {α β : Type} {run : Nat → Option α} {l : α} (h : Delivers run l) (g : α → β) : Delivers (fun n => (run n).map g) (g l) := by
  obtain ⟨N, h⟩ := h
  exact ⟨N, fun n hn => by simp only [h n hn]; rfl⟩
theorem Delivers.unique {α : Type} {run : Nat → Option α} {l l' : α} (h : Delivers run l) (h' : Delivers run l') : l = l' := by
  obtain ⟨N, h⟩ := h; obtain ⟨M, h'⟩ := h'
  have := (h (max N M) (by omega)).symm.trans (h' (max N M) (by omega))
  simpa using this
theorem Delivers.const {α : Type} (l : α) : Delivers (fun _ => some l) l := ⟨0, fun _ _ => rfl⟩

/-- the tree lists the children given by `ch` -/
def Lists (ch : Id → List Id) (T : Tree) : Prop := ∀ S ∈ T.pre, ch S.id = S.kids.map Tree.id

theorem Lists.kid {ch : Id → List Id} {T k : Tree} (H : Lists ch T) (hk : k ∈ T.kids) : Lists ch k := by
  intro S hS
  apply H
  cases T; simp only [Tree.pre, List.mem_cons, preL_eq, List.mem_flatMap]; exact .inr ⟨k, hk, hS⟩
theorem Lists.root {ch : Id → List Id} {T : Tree} (H : Lists ch T) : ch T.id = T.kids.map Tree.id := H T T.self_mem_pre
theorem Rep.lists {h : Heap} {T : Tree} (R : Rep h T) : Lists h.kids T := fun S hS => (R.sub S hS).kids

theorem mirrorL_eq (l : List Tree) : Tree.mirrorL l = (l.map Tree.mirror).reverse := by
  induction l with
  | nil => rfl
  | cons a l ih => simp [Tree.mirrorL, ih]
theorem mirror_id (T : Tree) : T.mirror.id = T.id := by cases T; rfl
theorem mirror_kids (T : Tree) : T.mirror.kids = (T.kids.map Tree.mirror).reverse := by cases T; simp [Tree.mirror, Tree.kids, mirrorL_eq]

theorem Lists.mk' {ch : Id → List Id} {T : Tree} (h1 : ch T.id = T.kids.map Tree.id) (h2 : ∀ k ∈ T.kids, Lists ch k) : Lists ch T := by
  intro S hS
  rcases Tree.kids_of_mem_pre hS with rfl | ⟨k, hk, hS⟩
  · exact h1
  · exact h2 k hk S hS

theorem Lists.mirror {ch : Id → List Id} {T : Tree} (H : Lists ch T) : Lists (fun x => (ch x).reverse) T.mirror := by
  induction T using Tree.ind with
  | H i t v f l ks ih =>
    have h0 := H.root
    refine Lists.mk' ?_ ?_
    · rw [mirror_id, mirror_kids]
      simp only [h0, List.map_reverse, List.map_map]
      congr 1
      apply List.map_congr_left
      intro k _; exact (mirror_id k).symm
    · intro k hk
      rw [mirror_kids] at hk
      simp only [List.mem_reverse, List.mem_map] at hk
      obtain ⟨k', hk', rfl⟩ := hk
      exact ih k' hk' (H.kid hk')

theorem preFL_append (f : Id → Bool) (a b : List Tree) : Tree.preFL f (a ++ b) = Tree.preFL f a ++ Tree.preFL f b := by
  induction a with
  | nil => rfl
  | cons x a ih => simp [Tree.preFL, ih]
theorem postFL_append (f : Id → Bool) (a b : List Tree) : Tree.postFL f (a ++ b) = Tree.postFL f a ++ Tree.postFL f b := by
  induction a with
  | nil => rfl
  | cons x a ih => simp [Tree.postFL, ih]

/-- top-down machine: one tree -/
theorem pre_goes {ch : Id → List Id} {f : Id → Bool} (T : Tree) : Lists ch T → ∀ xs st, Goes (preStep ch f) ((T.id :: xs) :: st) (T.preF f) (xs :: st) := by
  induction T using Tree.ind with
  | H i t v g l ks ih =>
    intro H xs st
    have hch : ch i = ks.map Tree.id := H.root
    have hL : ∀ (ks' : List Tree), (∀ k ∈ ks', k ∈ ks) → ∀ st, Goes (preStep ch f) (ks'.map Tree.id :: st) (Tree.preFL f ks') ([] :: st) := by
      intro ks'
      induction ks' with
      | nil => intro _ st; exact Goes.refl _
      | cons k r ihr =>
        intro hk st
        simp only [List.map_cons, Tree.preFL]
        exact (ih k (hk k (by simp)) (H.kid (hk k (by simp))) _ _).trans (ihr (fun k' h' => hk k' (by simp [h'])) st)
    simp only [Tree.id, Tree.preF]
    by_cases hf : f i = true
    · rw [if_pos hf]
      by_cases hc : ch i = []
      · have : ks = [] := by rw [hch] at hc; simpa using hc
        subst this
        exact Goes.one (by simp [preStep, hf, hc, Tree.preFL])
      · refine Goes.cons (o := [i]) (t := ch i :: xs :: st) (by simp [preStep, hf, hc]) ?_
        rw [hch]
        have := (hL ks (fun _ h => h) (xs :: st)).trans (Goes.one (step := preStep ch f) (s := [] :: xs :: st) (o := []) (t := xs :: st) rfl)
        simpa using this
    · rw [if_neg hf]
      exact Goes.one (by simp [preStep, hf])

theorem preL_goes {ch : Id → List Id} {f : Id → Bool} : ∀ (ks : List Tree), (∀ k ∈ ks, Lists ch k) → ∀ st,
    Goes (preStep ch f) (ks.map Tree.id :: st) (Tree.preFL f ks) st := by
  intro ks
  induction ks with
  | nil => intro _ st; exact Goes.one rfl
  | cons k r ihr =>
    intro H st
    simp only [List.map_cons, Tree.preFL]
    exact (pre_goes k (H k (by simp)) _ _).trans (ihr (fun k' h' => H k' (by simp [h'])) st)

/-- bottom-up machine: one tree -/
theorem post_goes {ch : Id → List Id} {f : Id → Bool} (T : Tree) : Lists ch T → ∀ xs st,
    Goes (postStep ch f) (.it (T.id :: xs) :: st) (T.postF f) (.it xs :: st) := by
  induction T using Tree.ind with
  | H i t v g l ks ih =>
    intro H xs st
    have hch : ch i = ks.map Tree.id := H.root
    have hL : ∀ (ks' : List Tree), (∀ k ∈ ks', k ∈ ks) → ∀ st, Goes (postStep ch f) (.it (ks'.map Tree.id) :: st) (Tree.postFL f ks') (.it [] :: st) := by
      intro ks'
      induction ks' with
      | nil => intro _ st; exact Goes.refl _
      | cons k r ihr =>
        intro hk st
        simp only [List.map_cons, Tree.postFL]
        exact (ih k (hk k (by simp)) (H.kid (hk k (by simp))) _ _).trans (ihr (fun k' h' => hk k' (by simp [h'])) st)
    simp only [Tree.id, Tree.postF]
    by_cases hf : f i = true
    · rw [if_pos hf]
      by_cases hc : ch i = []
      · have : ks = [] := by rw [hch] at hc; simpa using hc
        subst this
        exact Goes.one (by simp [postStep, hf, hc, Tree.postFL])
      · refine Goes.cons (o := []) (t := .it (ch i) :: .mark i :: .it xs :: st) (by simp [postStep, hf, hc]) ?_
        rw [hch]
        refine (hL ks (fun _ h => h) _).trans ?_
        exact Goes.cons (o := []) (t := .mark i :: .it xs :: st) rfl (Goes.one rfl)
    · rw [if_neg hf]
      exact Goes.one (by simp [postStep, hf])

theorem postL_goes {ch : Id → List Id} {f : Id → Bool} : ∀ (ks : List Tree), (∀ k ∈ ks, Lists ch k) → ∀ st,
    Goes (postStep ch f) (.it (ks.map Tree.id) :: st) (Tree.postFL f ks) st := by
  intro ks
  induction ks with
  | nil => intro _ st; exact Goes.one rfl
  | cons k r ihr =>
    intro H st
    simp only [List.map_cons, Tree.postFL]
    exact (post_goes k (H k (by simp)) _ _).trans (ihr (fun k' h' => H k' (by simp [h'])) st)

theorem pre_delivers {ch : Id → List Id} (f : Id → Bool) {T : Tree} (H : Lists ch T) :
    Delivers (fun n => gen (preStep ch f) n [ch T.id]) (Tree.preFL f T.kids, .ok []) := by
  rw [H.root]; exact (preL_goes T.kids (fun k hk => H.kid hk) []).finish rfl
theorem post_delivers {ch : Id → List Id} (f : Id → Bool) {T : Tree} (H : Lists ch T) :
    Delivers (fun n => gen (postStep ch f) n [.it (ch T.id)]) (Tree.postFL f T.kids, .ok []) := by
  rw [H.root]; exact (postL_goes T.kids (fun k hk => H.kid hk) []).finish rfl

/-- the tree the iteration sees -/
def Tree.view (rev : Bool) (T : Tree) : Tree := if rev then T.mirror else T

theorem Rep.view {h : Heap} {T : Tree} (R : Rep h T) (rev : Bool) : Lists (chOf rev h) (T.view rev) := by
  cases rev with
  | false => exact R.lists
  | true => exact R.lists.mirror
theorem view_id (rev : Bool) (T : Tree) : (T.view rev).id = T.id := by cases rev <;> simp [Tree.view, mirror_id]

/-! ### facts about the orders -/

theorem preFL_true (ks : List Tree) : Tree.preFL (fun _ => true) ks = Tree.idsL ks := by
  have h1 : ∀ T : Tree, T.preF (fun _ => true) = T.ids := by
    intro T
    induction T using Tree.ind with
    | H i t v f l ks ih =>
      have : Tree.preFL (fun _ => true) ks = Tree.idsL ks := by
        induction ks with
        | nil => rfl
        | cons k r ihr => rw [Tree.preFL, Tree.idsL_cons, ih k (by simp), ihr fun k' h' => ih k' (by simp [h'])]
      simp [Tree.preF, Tree.ids_node, this]
  induction ks with
  | nil => rfl
  | cons k r ihr => rw [Tree.preFL, Tree.idsL_cons, h1 k, ihr]

/-- post-order is the mirrored pre-order read backwards -/
theorem post_mirror (f : Id → Bool) (T : Tree) : T.mirror.postF f = (T.preF f).reverse := by
  induction T using Tree.ind with
  | H i t v g l ks ih =>
    have : Tree.postFL f (Tree.mirrorL ks) = (Tree.preFL f ks).reverse := by
      induction ks with
      | nil => rfl
      | cons k r ihr =>
        rw [Tree.mirrorL, postFL_append, Tree.preFL, List.reverse_append, ihr fun k' h' => ih k' (by simp [h'])]
        simp [Tree.postFL, ih k (by simp)]
    simp only [Tree.mirror, Tree.postF, Tree.preF, this]
    split <;> simp

theorem mirror_mirror (T : Tree) : T.mirror.mirror = T := by
  induction T using Tree.ind with
  | H i t v g l ks ih =>
    simp only [Tree.mirror, mirrorL_eq, List.map_reverse, List.reverse_reverse, List.map_map]
    congr 1
    exact map_id_of fun k hk => ih k hk

theorem post_eq (f : Id → Bool) (T : Tree) : T.postF f = (T.mirror.preF f).reverse := by
  have := post_mirror f T.mirror
  rwa [mirror_mirror] at this

theorem pre_perm_mirror (f : Id → Bool) (T : Tree) : (T.mirror.preF f).Perm (T.preF f) := by
  induction T using Tree.ind with
  | H i t v g l ks ih =>
    have : (Tree.preFL f (Tree.mirrorL ks)).Perm (Tree.preFL f ks) := by
      induction ks with
      | nil => exact .refl _
      | cons k r ihr =>
        rw [Tree.mirrorL, preFL_append]
        simp only [Tree.preFL, List.append_nil]
        exact ((ihr fun k' h' => ih k' (by simp [h'])).append (ih k (by simp))).trans List.perm_append_comm
    simp only [Tree.mirror, Tree.preF]
    split
    · exact this.cons i
    · exact .refl _

end ITree
