import Verif.Proofs.ObjCopy
import Verif.Proofs.ObjTotal
/-
Values of a copied tree.
-/
namespace ITree

/-- everything but the value -/
def Same5 (a b : Tree) : Prop := b.id = a.id ∧ b.tag = a.tag ∧ b.flags = a.flags ∧ b.link = a.link ∧ b.kids.length = a.kids.length

theorem revalueL_length {m : CopyMode} : ∀ {ks : List Tree} {s : Store} {r}, Tree.revalueL m s ks = .ok r → r.2.length = ks.length
  | [], s, r, h => by simp only [Tree.revalueL, Except.ok.injEq] at h; subst h; rfl
  | k :: ks, s, r, h => by
    simp only [Tree.revalueL] at h
    split at h
    · cases h
    · split at h
      · cases h
      · rename_i e; simp only [Except.ok.injEq] at h; subst h; simp [revalueL_length e]

section
variable {m : CopyMode} {P : Store → Prop} {Q : Store → Val → Val → Prop} {V : Val → Prop}

def RInv (m : CopyMode) (P : Store → Prop) (Q : Store → Val → Val → Prop) (V : Val → Prop) (T : Tree) : Prop :=
  ∀ s r, P s → (∀ S ∈ T.pre, V S.value) → T.revalue m s = .ok r → P r.1 ∧
    List.Forall₂ (fun a b => Same5 a b ∧ Q r.1 a.value b.value) T.pre r.2.pre ∧ (∀ w w', Q s w w' → Q r.1 w w')
def RInvL (m : CopyMode) (P : Store → Prop) (Q : Store → Val → Val → Prop) (V : Val → Prop) (ts : List Tree) : Prop :=
  ∀ s r, P s → (∀ S ∈ Tree.preL ts, V S.value) → Tree.revalueL m s ts = .ok r → P r.1 ∧
    List.Forall₂ (fun a b => Same5 a b ∧ Q r.1 a.value b.value) (Tree.preL ts) (Tree.preL r.2) ∧ (∀ w w', Q s w w' → Q r.1 w w')

theorem revalue_inv (step : ∀ s v r, P s → V v → copyValue m s v = .ok r → P r.1 ∧ Q r.1 v r.2 ∧ ∀ w w', Q s w w' → Q r.1 w w') (T : Tree) : RInv m P Q V T := by
  refine Tree.rec (motive_1 := RInv m P Q V) (motive_2 := RInvL m P Q V) ?_ ?_ ?_ T
  · intro i t v f l ks ih s r hP hV e
    simp only [Tree.revalue] at e
    cases e1 : copyValue m s v with
    | error _ => rw [e1] at e; cases e
    | ok r1 =>
      rw [e1] at e
      simp only at e
      cases e2 : Tree.revalueL m r1.1 ks with
      | error _ => rw [e2] at e; cases e
      | ok r2 =>
        rw [e2] at e
        simp only [Except.ok.injEq] at e
        subst e
        obtain ⟨p1, q1, m1⟩ := step s v r1 hP (hV (.node i t v f l ks) (by simp [Tree.pre])) e1
        obtain ⟨p2, q2, m2⟩ := ih r1.1 r2 p1 (fun S hS => hV S (by simp [Tree.pre, hS])) e2
        refine ⟨p2, ?_, fun w w' h => m2 w w' (m1 w w' h)⟩
        simp only [Tree.pre]
        exact .cons ⟨⟨rfl, rfl, rfl, rfl, revalueL_length e2⟩, m2 _ _ q1⟩ q2
  · intro s r hP hV e
    simp only [Tree.revalueL, Except.ok.injEq] at e
    subst e
    exact ⟨hP, by simp [Tree.preL], fun _ _ => id⟩
  · intro k ks ihk ihks s r hP hV e
    simp only [Tree.revalueL] at e
    cases e1 : Tree.revalue m s k with
    | error _ => rw [e1] at e; cases e
    | ok r1 =>
      rw [e1] at e
      simp only at e
      cases e2 : Tree.revalueL m r1.1 ks with
      | error _ => rw [e2] at e; cases e
      | ok r2 =>
        rw [e2] at e
        simp only [Except.ok.injEq] at e
        subst e
        obtain ⟨p1, q1, m1⟩ := ihk s r1 hP (fun S hS => hV S (by simp [Tree.preL, hS])) e1
        obtain ⟨p2, q2, m2⟩ := ihks r1.1 r2 p1 (fun S hS => hV S (by simp [Tree.preL, hS])) e2
        refine ⟨p2, ?_, fun w w' h => m2 w w' (m1 w w' h)⟩
        simp only [Tree.preL]
        refine List.rel_append (q1.imp fun a b h => ⟨h.1, m2 _ _ h.2⟩) q2

theorem revalue_ok (step : ∀ s v, P s → V v → ∃ r, copyValue m s v = .ok r ∧ P r.1) (T : Tree) :
    ∀ s, P s → (∀ S ∈ T.pre, V S.value) → ∃ r, T.revalue m s = .ok r ∧ P r.1 := by
  refine Tree.rec (motive_1 := fun T => ∀ s, P s → (∀ S ∈ T.pre, V S.value) → ∃ r, T.revalue m s = .ok r ∧ P r.1)
    (motive_2 := fun ts => ∀ s, P s → (∀ S ∈ Tree.preL ts, V S.value) → ∃ r, Tree.revalueL m s ts = .ok r ∧ P r.1) ?_ ?_ ?_ T
  · intro i t v f l ks ih s hP hV
    obtain ⟨r1, e1, p1⟩ := step s v hP (hV (.node i t v f l ks) (by simp [Tree.pre]))
    obtain ⟨r2, e2, p2⟩ := ih r1.1 p1 fun S hS => hV S (by simp [Tree.pre, hS])
    exact ⟨(r2.1, .node i t r1.2 f l r2.2), by simp only [Tree.revalue, e1, e2], p2⟩
  · intro s hP _; exact ⟨_, rfl, hP⟩
  · intro k ks ihk ihks s hP hV
    obtain ⟨r1, e1, p1⟩ := ihk s hP fun S hS => hV S (by simp [Tree.preL, hS])
    obtain ⟨r2, e2, p2⟩ := ihks r1.1 p1 fun S hS => hV S (by simp [Tree.preL, hS])
    exact ⟨(r2.1, r1.2 :: r2.2), by simp only [Tree.revalueL, e1, e2], p2⟩

end

/-- items of the built tree, in deep order -/
theorem shape_pre (T R : Tree) (h : T.shape = R.copyShape) : List.Forall₂ (fun a b => SameItem a b ∧ b.value = a.value) R.pre T.pre := by
  revert T
  refine Tree.rec (motive_1 := fun R => ∀ T : Tree, T.shape = R.copyShape → List.Forall₂ (fun a b => SameItem a b ∧ b.value = a.value) R.pre T.pre)
    (motive_2 := fun Rs => ∀ Ts : List Tree, Tree.shapeL Ts = Tree.copyShapeL Rs → List.Forall₂ (fun a b => SameItem a b ∧ b.value = a.value) (Tree.preL Rs) (Tree.preL Ts)) ?_ ?_ ?_ R
  · intro i t v f l ks ih T h
    obtain ⟨i', t', v', f', l', ks'⟩ := T
    simp only [Tree.shape, Tree.copyShape, Shape.node.injEq] at h
    obtain ⟨rfl, rfl, rfl, rfl, hk⟩ := h
    simp only [Tree.pre]
    refine .cons ⟨⟨rfl, rfl, rfl, ?_⟩, rfl⟩ (ih ks' hk)
    have := congrArg List.length hk
    simpa [shapeL_eq, copyShapeL_eq, Tree.kids] using this
  · intro Ts h
    cases Ts with
    | nil => exact .nil
    | cons _ _ => simp [Tree.shapeL, Tree.copyShapeL] at h
  · intro k ks ihk ihks Ts h
    cases Ts with
    | nil => simp [Tree.shapeL, Tree.copyShapeL] at h
    | cons T Ts =>
      simp only [Tree.shapeL, Tree.copyShapeL, List.cons.injEq] at h
      simp only [Tree.preL]
      exact List.rel_append (ihk T h.1) (ihks Ts h.2)

theorem copyLink_same {a b : Tree} (h : Same5 a b) : copyLink b = copyLink a := by
  simp only [copyLink, h.2.2.1, h.2.2.2.1]

theorem forall2_comp {α β γ : Type} {P : α → β → Prop} {Q : β → γ → Prop} {R : α → γ → Prop} (h : ∀ a b c, P a b → Q b c → R a c) :
    ∀ {l : List α} {m : List β} {n : List γ}, List.Forall₂ P l m → List.Forall₂ Q m n → List.Forall₂ R l n
  | _, _, _, .nil, .nil => .nil
  | _, _, _, .cons a as, .cons b bs => .cons (h _ _ _ a b) (forall2_comp h as bs)

/-! ### the three modes -/

/-- relation of the values under `deepcopy` -/
def DeepVal (s0 s : Store) (v v' : Val) : Prop :=
  match v with
  | .obj a => ∃ b, v' = .obj b ∧ b < s.next ∧ (s0.next ≤ b ∨ Imm s0 b) ∧ ∀ k, s.look k b = s0.look k a
  | v => v' = v

theorem copyValue_const {m : CopyMode} {s : Store} {v : Val} (h : ∀ a, v ≠ .obj a) : copyValue m s v = .ok (s, v) := by
  cases v <;> first | rfl | exact absurd rfl (h _)

theorem grown_look {s0 s s' : Store} (g : Grown s0 s) (C : s0.Closed) (hc : ∀ c, c < s.next → s'.cell c = s.cell c) (k : Nat) {b : Nat} (hb : b < s.next) : s'.look k b = s.look k b := by
  refine look_congr (fun b => b < s.next) (fun a ha => ⟨hc a ha, fun p hp => ?_⟩) k b hb
  by_cases h : a < s0.next
  · rw [g.old a h] at hp; have := C a h p hp; have := g.le; omega
  · exact (g.new a (by omega) ha p hp).1

theorem deep_step {s0 : Store} (G : s0.Good) (n : Nat) : ∀ s v r, Grown s0 s → v.In s0 → copyValue (.deep n) s v = .ok r →
    Grown s0 r.1 ∧ DeepVal s0 r.1 v r.2 ∧ ∀ w w', DeepVal s0 s w w' → DeepVal s0 r.1 w w' := by
  intro s v r g hv e
  by_cases ho : ∃ a, v = .obj a
  · obtain ⟨a, rfl⟩ := ho
    simp only [copyValue, bind, Except.bind] at e
    cases e1 : memoCopy n ⟨s, []⟩ a with
    | error _ => rw [e1] at e; cases e
    | ok q =>
      rw [e1] at e
      simp only [pure, Except.pure, Except.ok.injEq] at e
      subst e
      obtain ⟨g', hle, hc, hb, hw, hl⟩ := memoCopy_fresh G g hv e1
      refine ⟨g', ⟨q.2, rfl, hb, hw, hl⟩, fun w w' h => ?_⟩
      unfold DeepVal at h ⊢
      split
      · obtain ⟨b, h1, h2, h3, h4⟩ := h
        exact ⟨b, h1, by simp only; omega, h3, fun k => (grown_look g G.closed hc k h2).trans (h4 k)⟩
      · rename_i hx
        cases w <;> first | exact h | exact absurd rfl (hx _)
  · rw [copyValue_const fun a h => ho ⟨a, h⟩] at e
    simp only [Except.ok.injEq] at e
    subst e
    refine ⟨g, ?_, fun _ _ => id⟩
    cases v <;> first | rfl | exact absurd ⟨_, rfl⟩ ho

/-- relation of the values under `copy` -/
def CopyVal (s0 s : Store) (v v' : Val) : Prop :=
  match v with
  | .obj a => if (s0.cell a).kind.hashable = true then v' = .obj a else ∃ b, v' = .obj b ∧ s0.next ≤ b ∧ b < s.next ∧ s.cell b = s0.cell a
  | v => v' = v

/-- old cells are as before -/
structure Kept (s0 s : Store) : Prop where
  le : s0.next ≤ s.next
  old : ∀ c, c < s0.next → s.cell c = s0.cell c

theorem copy_step {s0 : Store} : ∀ s v r, Kept s0 s → v.In s0 → copyValue .copy s v = .ok r →
    Kept s0 r.1 ∧ CopyVal s0 r.1 v r.2 ∧ ∀ w w', CopyVal s0 s w w' → CopyVal s0 r.1 w w' := by
  intro s v r g hv e
  by_cases ho : ∃ a, v = .obj a
  · obtain ⟨a, rfl⟩ := ho
    have hv' : a < s0.next := hv
    simp only [copyValue, g.old a hv'] at e
    by_cases hh : (s0.cell a).kind.hashable = true
    · rw [if_pos hh] at e
      simp only [Except.ok.injEq] at e
      subst e
      exact ⟨g, by simp [CopyVal, hh], fun _ _ => id⟩
    · rw [if_neg hh] at e
      have es : shallow s a = s.alloc (s0.cell a) := by
        unfold shallow
        rw [g.old a hv']
        cases ek : (s0.cell a).kind <;> first | rfl | (rw [ek] at hh; exact absurd rfl hh)
      simp only [es, Except.ok.injEq] at e
      subst e
      have := g.le
      refine ⟨⟨by simp only [Store.alloc]; omega, fun c hc => ?_⟩, ?_, fun w w' h => ?_⟩
      · simp only [Store.alloc, if_neg (show c ≠ s.next by omega)]; exact g.old c hc
      · simp only [CopyVal, hh]
        exact ⟨s.next, rfl, g.le, by simp [Store.alloc], by simp [Store.alloc]⟩
      · unfold CopyVal at h ⊢
        split
        · rename_i x
          simp only at h
          split
          · rename_i hx; rw [if_pos hx] at h; exact h
          · rename_i hx; rw [if_neg hx] at h
            obtain ⟨b, h1, h2, h3, h4⟩ := h
            exact ⟨b, h1, h2, Nat.lt_succ_of_lt h3, by simp only [Store.alloc, if_neg (show b ≠ s.next by omega)]; exact h4⟩
        · rename_i hx
          cases w <;> first | exact h | exact absurd rfl (hx _)
  · rw [copyValue_const fun a h => ho ⟨a, h⟩] at e
    simp only [Except.ok.injEq] at e
    subst e
    refine ⟨g, ?_, fun _ _ => id⟩
    cases v <;> first | rfl | exact absurd ⟨_, rfl⟩ ho

theorem copyValue_mono {n : Nat} {s : Store} {v : Val} {r} (e : copyValue (.deep n) s v = .ok r) {m : Nat} (h : n ≤ m) : copyValue (.deep m) s v = .ok r := by
  by_cases ho : ∃ a, v = .obj a
  · obtain ⟨a, rfl⟩ := ho
    simp only [copyValue, bind, Except.bind] at e ⊢
    cases e1 : memoCopy n ⟨s, []⟩ a with
    | error _ => rw [e1] at e; cases e
    | ok q => rw [e1] at e; rw [memoCopy_mono' h e1]; exact e
  · rw [copyValue_const fun a h => ho ⟨a, h⟩] at e ⊢; exact e

theorem revalue_mono {n m : Nat} (h : n ≤ m) (T : Tree) : ∀ s r, T.revalue (.deep n) s = .ok r → T.revalue (.deep m) s = .ok r := by
  refine Tree.rec (motive_1 := fun T => ∀ s r, T.revalue (.deep n) s = .ok r → T.revalue (.deep m) s = .ok r)
    (motive_2 := fun ts => ∀ s r, Tree.revalueL (.deep n) s ts = .ok r → Tree.revalueL (.deep m) s ts = .ok r) ?_ ?_ ?_ T
  · intro i t v f l ks ih s r e
    simp only [Tree.revalue] at e ⊢
    cases e1 : copyValue (.deep n) s v with
    | error _ => rw [e1] at e; cases e
    | ok r1 =>
      rw [e1] at e; rw [copyValue_mono e1 h]
      simp only at e ⊢
      cases e2 : Tree.revalueL (.deep n) r1.1 ks with
      | error _ => rw [e2] at e; cases e
      | ok r2 => rw [e2] at e; rw [ih _ _ e2]; exact e
  · intro s r e; exact e
  · intro k ks ihk ihks s r e
    simp only [Tree.revalueL] at e ⊢
    cases e1 : Tree.revalue (.deep n) s k with
    | error _ => rw [e1] at e; cases e
    | ok r1 =>
      rw [e1] at e; rw [ihk _ _ e1]
      simp only at e ⊢
      cases e2 : Tree.revalueL (.deep n) r1.1 ks with
      | error _ => rw [e2] at e; cases e
      | ok r2 => rw [e2] at e; rw [ihks _ _ e2]; exact e

theorem copyValue_total {s0 : Store} (G : s0.Good) {rank : Nat → Nat} (R : s0.Ranked rank) {s : Store} (g : Grown s0 s) {v : Val} (hv : v.In s0) :
    ∃ n r, copyValue (.deep n) s v = .ok r := by
  by_cases ho : ∃ a, v = .obj a
  · obtain ⟨a, rfl⟩ := ho
    obtain ⟨n, r, e⟩ := memoCopy_total G R _ _ ⟨s, []⟩ a ⟨g, fun p q h => by cases h⟩ hv (Nat.le_refl _) (Nat.le_refl _)
    exact ⟨n, _, by simp only [copyValue, bind, Except.bind, e]; rfl⟩
  · exact ⟨0, _, copyValue_const fun a h => ho ⟨a, h⟩⟩

theorem revalue_total {s0 : Store} (G : s0.Good) {rank : Nat → Nat} (R : s0.Ranked rank) (T : Tree) :
    ∀ s, Grown s0 s → (∀ S ∈ T.pre, S.value.In s0) → ∃ n r, T.revalue (.deep n) s = .ok r := by
  have up : ∀ {s v n r}, Grown s0 s → v.In s0 → copyValue (.deep n) s v = .ok r → Grown s0 r.1 := fun g hv e => (deep_step G _ _ _ _ g hv e).1
  refine Tree.rec (motive_1 := fun T => ∀ s, Grown s0 s → (∀ S ∈ T.pre, S.value.In s0) → ∃ n r, T.revalue (.deep n) s = .ok r)
    (motive_2 := fun ts => ∀ s, Grown s0 s → (∀ S ∈ Tree.preL ts, S.value.In s0) → ∃ n r, Tree.revalueL (.deep n) s ts = .ok r) ?_ ?_ ?_ T
  · intro i t v f l ks ih s g hV
    have hv : v.In s0 := hV (.node i t v f l ks) (by simp [Tree.pre])
    obtain ⟨n1, r1, e1⟩ := copyValue_total G R g hv
    obtain ⟨n2, r2, e2⟩ := ih r1.1 (up g hv e1) fun S hS => hV S (by simp [Tree.pre, hS])
    refine ⟨max n1 n2, (r2.1, .node i t r1.2 f l r2.2), ?_⟩
    have e2' : Tree.revalueL (.deep (max n1 n2)) r1.1 ks = .ok r2 := by
      have := revalue_mono (Nat.le_max_right n1 n2) (.node 0 .noTag .none 0#6 none ks) r1.1 (r2.1, .node 0 .noTag .none 0#6 none r2.2) (by
        simp only [Tree.revalue, copyValue, e2])
      simp only [Tree.revalue, copyValue] at this
      split at this
      · cases this
      · rename_i q hq; rw [hq]; simp only [Except.ok.injEq, Prod.mk.injEq, Tree.node.injEq] at this
        exact congrArg Except.ok (Prod.ext this.1 this.2.2.2.2.2.2)
    simp only [Tree.revalue, copyValue_mono e1 (Nat.le_max_left n1 n2), e2']
  · intro s g _; exact ⟨0, _, rfl⟩
  · intro k ks ihk ihks s g hV
    have hk : ∀ S ∈ k.pre, S.value.In s0 := fun S hS => hV S (by simp [Tree.preL, hS])
    obtain ⟨n1, r1, e1⟩ := ihk s g hk
    have g1 : Grown s0 r1.1 := (revalue_inv (P := Grown s0) (Q := DeepVal s0) (V := Val.In s0) (deep_step G n1) k s r1 g hk e1).1
    obtain ⟨n2, r2, e2⟩ := ihks r1.1 g1 fun S hS => hV S (by simp [Tree.preL, hS])
    refine ⟨max n1 n2, (r2.1, r1.2 :: r2.2), ?_⟩
    have e2' : Tree.revalueL (.deep (max n1 n2)) r1.1 ks = .ok r2 := by
      have := revalue_mono (Nat.le_max_right n1 n2) (.node 0 .noTag .none 0#6 none ks) r1.1 (r2.1, .node 0 .noTag .none 0#6 none r2.2) (by
        simp only [Tree.revalue, copyValue, e2])
      simp only [Tree.revalue, copyValue] at this
      split at this
      · cases this
      · rename_i q hq; rw [hq]; simp only [Except.ok.injEq, Prod.mk.injEq, Tree.node.injEq] at this
        exact congrArg Except.ok (Prod.ext this.1 this.2.2.2.2.2.2)
    simp only [Tree.revalueL, revalue_mono (Nat.le_max_left n1 n2) k _ _ e1, e2']

/-- new objects of a `copy()` are all different: increasing in deep order -/
theorem copy_fresh {s0 : Store} (T : Tree) : ∀ s r, Kept s0 s → (∀ S ∈ T.pre, S.value.In s0) → T.revalue .copy s = .ok r →
    (r.2.objs.filter (s0.next ≤ ·)).Pairwise (· < ·) ∧ (∀ y ∈ r.2.objs.filter (s0.next ≤ ·), s.next ≤ y ∧ y < r.1.next) ∧ s.next ≤ r.1.next ∧ Kept s0 r.1 := by
  have hval : ∀ s v r, Kept s0 s → v.In s0 → copyValue .copy s v = .ok r → s.next ≤ r.1.next ∧ (∀ a, r.2 = .obj a → s0.next ≤ a → s.next ≤ a ∧ a < r.1.next) := by
    intro s v r g hv e
    by_cases ho : ∃ a, v = .obj a
    · obtain ⟨a, rfl⟩ := ho
      have hv' : a < s0.next := hv
      simp only [copyValue, g.old a hv'] at e
      split at e
      · simp only [Except.ok.injEq] at e; subst e
        refine ⟨Nat.le_refl _, fun b hb hle => ?_⟩
        simp only [Val.obj.injEq] at hb; omega
      · rename_i hh
        have es : shallow s a = s.alloc (s0.cell a) := by
          unfold shallow
          rw [g.old a hv']
          cases ek : (s0.cell a).kind <;> first | rfl | (rw [ek] at hh; exact absurd rfl hh)
        simp only [es, Except.ok.injEq] at e
        subst e
        refine ⟨by simp [Store.alloc], fun b hb _ => ?_⟩
        simp only [Store.alloc, Val.obj.injEq] at hb ⊢; omega
    · rw [copyValue_const fun a h => ho ⟨a, h⟩] at e
      simp only [Except.ok.injEq] at e
      subst e
      exact ⟨Nat.le_refl _, fun a h => absurd ⟨a, h⟩ ho⟩
  refine Tree.rec (motive_1 := fun T => ∀ s r, Kept s0 s → (∀ S ∈ T.pre, S.value.In s0) → T.revalue .copy s = .ok r →
    (r.2.objs.filter (s0.next ≤ ·)).Pairwise (· < ·) ∧ (∀ y ∈ r.2.objs.filter (s0.next ≤ ·), s.next ≤ y ∧ y < r.1.next) ∧ s.next ≤ r.1.next ∧ Kept s0 r.1)
    (motive_2 := fun ts => ∀ s r, Kept s0 s → (∀ S ∈ Tree.preL ts, S.value.In s0) → Tree.revalueL .copy s ts = .ok r →
    (((Tree.preL r.2).filterMap fun i => i.value.ref).filter (s0.next ≤ ·)).Pairwise (· < ·) ∧
      (∀ y ∈ ((Tree.preL r.2).filterMap fun i => i.value.ref).filter (s0.next ≤ ·), s.next ≤ y ∧ y < r.1.next) ∧ s.next ≤ r.1.next ∧ Kept s0 r.1) ?_ ?_ ?_ T
  · intro i t v f l ks ih s r g hV e
    simp only [Tree.revalue] at e
    have hv : v.In s0 := hV (.node i t v f l ks) (by simp [Tree.pre])
    cases e1 : copyValue .copy s v with
    | error _ => rw [e1] at e; cases e
    | ok r1 =>
      rw [e1] at e
      simp only at e
      cases e2 : Tree.revalueL .copy r1.1 ks with
      | error _ => rw [e2] at e; cases e
      | ok r2 =>
        rw [e2] at e
        simp only [Except.ok.injEq] at e
        subst e
        obtain ⟨l1, v1⟩ := hval s v r1 g hv e1
        obtain ⟨a, b, c, d⟩ := ih r1.1 r2 (copy_step s v r1 g hv e1).1 (fun S hS => hV S (by simp [Tree.pre, hS])) e2
        have tail : ∀ y ∈ ((Tree.preL r2.2).filterMap fun i => i.value.ref).filter (s0.next ≤ ·), s.next ≤ y ∧ y < r2.1.next :=
          fun y hy => by have := b y hy; omega
        by_cases ho : ∃ a, r1.2 = .obj a
        · obtain ⟨x, hx⟩ := ho
          simp only [Tree.objs, Tree.pre, List.filterMap_cons, Tree.value, hx, Val.ref]
          by_cases hn : s0.next ≤ x
          · have := v1 x hx hn
            rw [List.filter_cons_of_pos (by simpa using hn)]
            refine ⟨List.pairwise_cons.2 ⟨fun y hy => by have := b y hy; omega, a⟩, fun y hy => ?_, by omega, d⟩
            rcases List.mem_cons.1 hy with rfl | hy
            · omega
            · exact tail y hy
          · rw [List.filter_cons_of_neg (by simpa using hn)]
            exact ⟨a, tail, by omega, d⟩
        · have : r1.2.ref = none := by
            cases hr : r1.2 <;> first | rfl | exact absurd ⟨_, hr⟩ ho
          simp only [Tree.objs, Tree.pre, List.filterMap_cons, Tree.value, this]
          exact ⟨a, tail, by omega, d⟩
  · intro s r g _ e
    simp only [Tree.revalueL, Except.ok.injEq] at e
    subst e
    simp [Tree.preL, g]
  · intro k ks ihk ihks s r g hV e
    simp only [Tree.revalueL] at e
    cases e1 : Tree.revalue .copy s k with
    | error _ => rw [e1] at e; cases e
    | ok r1 =>
      rw [e1] at e
      simp only at e
      cases e2 : Tree.revalueL .copy r1.1 ks with
      | error _ => rw [e2] at e; cases e
      | ok r2 =>
        rw [e2] at e
        simp only [Except.ok.injEq] at e
        subst e
        obtain ⟨a1, b1, c1, d1⟩ := ihk s r1 g (fun S hS => hV S (by simp [Tree.preL, hS])) e1
        obtain ⟨a2, b2, c2, d2⟩ := ihks r1.1 r2 d1 (fun S hS => hV S (by simp [Tree.preL, hS])) e2
        simp only [Tree.objs] at a1 b1
        simp only [Tree.preL, List.filterMap_append, List.filter_append]
        refine ⟨List.pairwise_append.2 ⟨a1, a2, fun x hx y hy => ?_⟩, fun y hy => ?_, by omega, d2⟩
        · have := b1 x hx; have := b2 y hy; omega
        · rcases List.mem_append.1 hy with hy | hy
          · have := b1 y hy; omega
          · have := b2 y hy; omega

end ITree
