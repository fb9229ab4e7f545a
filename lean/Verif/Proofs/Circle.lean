import Verif.Spec.Circle
import Verif.Proofs.LoadAll
import Verif.Proofs.Replace
/-
Loading circular links never succeeds.
-/
namespace ITree

/-- items whose parent loading can not change: they exist, are not linked, and their parent is no link root -/
def Own (h : Heap) (i : Id) : Prop := i < h.next ∧ (h.flags i).has Flags.linked = false ∧ ∀ q, h.par i = some q → h.isLinkRoot q = false

/-- what loading links keeps, seen from the state `h` at the start; `fo` is whether the loading is forced -/
structure LoadKeeps (fo : Bool) (h : Heap) (S : Id → Prop) (g : Heap) : Prop where
  next : h.next ≤ g.next
  flags : ∀ i, i < h.next → g.flags i = h.flags i
  tag : ∀ i, i < h.next → g.tag i = h.tag i
  node : ∀ i, i < h.next → h.isLinkRoot i = false → g.kids i = h.kids i ∧ g.boundFams i = h.boundFams i
  par : ∀ i, Own h i → g.par i = h.par i
  link : ∀ i, S i → ∀ lk, (h.node i).link = some lk → ∃ lk', (g.node i).link = some lk' ∧ lk'.file = lk.file ∧ (lk'.path = lk.path ∨ lk'.path = dropRoot (h.tag (h.root i)) lk.path) ∧
    (fo = false → lk'.loaded = lk.loaded)
  kids : ∀ q, (q < h.next → h.isLinkRoot q = true) → ∀ x ∈ g.kids q, ¬ Own h x

section
variable {fo : Bool} {h : Heap} {S : Id → Prop} {g : Heap}

theorem LoadKeeps.start (W : WF h) : LoadKeeps fo h S h where
  next := Nat.le_refl _
  flags _ _ := rfl
  tag _ _ := rfl
  node _ _ _ := ⟨rfl, rfl⟩
  par _ _ := rfl
  link _ _ lk e := ⟨lk, e, rfl, Or.inl rfl, fun _ => rfl⟩
  kids q hq x hx o := by
    by_cases hlt : q < h.next
    · obtain ⟨r, e1, e2, -⟩ := W.kid_parent q x hx
      have := o.2.2 q (by simp [Heap.par, e1, e2])
      rw [hq hlt] at this; cases this
    · rw [(W.fresh q (by omega)).1] at hx; cases hx

theorem LoadKeeps.root_iff (K : LoadKeeps fo h S g) {i : Id} (hi : i < h.next) : g.isLinkRoot i = h.isLinkRoot i := by
  simp only [Heap.isLinkRoot, K.flags i hi]

/-- an item loading may change the children of -/
def Open (h : Heap) (p : Id) : Prop := p < h.next → h.isLinkRoot p = true

theorem LoadKeeps.open_of (K : LoadKeeps fo h S g) {p : Id} (hp : g.isLinkRoot p = true) : Open h p := fun hlt => by rw [← K.root_iff hlt]; exact hp

/-- changes of one node -/
theorem LoadKeeps.modifyL (K : LoadKeeps fo h S g) {q : Id} {f : Node → Node} (hf : q < h.next → (f (g.node q)).flags = (g.node q).flags ∧ (f (g.node q)).tag = (g.node q).tag)
    (hn : q < h.next → h.isLinkRoot q = false → (f (g.node q)).items = (g.node q).items ∧ (f (g.node q)).stale = (g.node q).stale ∧ (f (g.node q)).fams = (g.node q).fams)
    (hp : Own h q → (f (g.node q)).parent.map PRef.pid = (g.node q).parent.map PRef.pid) (hl : S q → ∀ lk, (g.node q).link = some lk → ∃ lk', (f (g.node q)).link = some lk' ∧ lk'.file = lk.file ∧ lk'.path = lk.path ∧ (fo = false → lk'.loaded = lk.loaded))
    (hk : Open h q → ∀ x ∈ (f (g.node q)).items, ¬ Own h x) : LoadKeeps fo h S (g.modify q f) where
  next := K.next
  flags i hi := by
    rw [← K.flags i hi]
    simp only [Heap.flags, Heap.modify]
    split
    · next e => subst e; exact (hf hi).1
    · rfl
  tag i hi := by
    rw [← K.tag i hi]
    simp only [Heap.tag, Heap.modify]
    split
    · next e => subst e; exact (hf hi).2
    · rfl
  node i hi hr := by
    rw [← (K.node i hi hr).1, ← (K.node i hi hr).2]
    simp only [Heap.kids, Heap.boundFams, Heap.modify]
    split
    · next e => subst e; obtain ⟨a, b, c⟩ := hn hi hr; rw [a, b, c]; exact ⟨rfl, rfl⟩
    · exact ⟨rfl, rfl⟩
  par i o := by
    rw [← K.par i o]
    simp only [Heap.par, Heap.modify]
    split
    · next e => subst e; exact hp o
    · rfl
  link i si lk e := by
    have := K.link i si lk e
    simp only [Heap.modify]
    split
    · next e' =>
      subst e'
      obtain ⟨l1, a1, a2, a3, a4⟩ := this
      obtain ⟨l2, b1, b2, b3, b4⟩ := hl si l1 a1
      exact ⟨l2, b1, b2.trans a2, by rw [b3]; exact a3, fun c => (b4 c).trans (a4 c)⟩
    · exact this
  kids i hi x hx := by
    simp only [Heap.kids, Heap.modify] at hx
    split at hx
    · next e => subst e; exact hk hi x hx
    · exact K.kids i hi x hx

theorem LoadKeeps.modify (K : LoadKeeps fo h S g) {q : Id} {f : Node → Node} (hf : q < h.next → (f (g.node q)).flags = (g.node q).flags ∧ (f (g.node q)).tag = (g.node q).tag)
    (hn : q < h.next → h.isLinkRoot q = false → (f (g.node q)).items = (g.node q).items ∧ (f (g.node q)).stale = (g.node q).stale ∧ (f (g.node q)).fams = (g.node q).fams)
    (hp : Own h q → (f (g.node q)).parent.map PRef.pid = (g.node q).parent.map PRef.pid) (hl : S q → (f (g.node q)).link = (g.node q).link)
    (hk : Open h q → ∀ x ∈ (f (g.node q)).items, ¬ Own h x) : LoadKeeps fo h S (g.modify q f) :=
  K.modifyL hf hn hp (fun sq lk e => ⟨lk, by rw [hl sq]; exact e, rfl, rfl, fun _ => rfl⟩) hk

theorem LoadKeeps.ceq (K : LoadKeeps fo h S g) {g' : Heap} (C : CEq g g') : LoadKeeps fo h S g' where
  next := by rw [C.next]; exact K.next
  flags i hi := by rw [← K.flags i hi]; simp only [Heap.flags]; rw [C.node i]
  tag i hi := by rw [← K.tag i hi]; simp only [Heap.tag]; rw [C.node i]
  node i hi hr := by
    rw [← (K.node i hi hr).1, ← (K.node i hi hr).2]
    simp only [Heap.kids, Heap.boundFams]; rw [C.node i]; exact ⟨rfl, rfl⟩
  par i o := by
    rw [← K.par i o]
    exact C.par' i
  link i si lk e := by rw [C.node i]; exact K.link i si lk e
  kids i hi x hx := by rw [C.kids i] at hx; exact K.kids i hi x hx

theorem LoadKeeps.alloc (K : LoadKeeps fo h S g) {n : Node} (hn : n.items = []) (hS : ∀ i, S i → i < h.next) : LoadKeeps fo h S (g.alloc n).1 ∧ Open h (g.alloc n).2 ∧ ¬ Own h (g.alloc n).2 := by
  have hx := K.next
  refine ⟨⟨Nat.le_succ_of_le K.next, ?_, ?_, ?_, ?_, ?_, ?_⟩, fun hlt => absurd hlt (by simp only [Heap.alloc]; omega), fun o => absurd o.1 (by simp only [Heap.alloc]; omega)⟩
  · intro i hi; rw [← K.flags i hi]; simp only [Heap.flags, Heap.alloc]; rw [if_neg (by omega)]
  · intro i hi; rw [← K.tag i hi]; simp only [Heap.tag, Heap.alloc]; rw [if_neg (by omega)]
  · intro i hi hr; rw [← (K.node i hi hr).1, ← (K.node i hi hr).2]; simp only [Heap.kids, Heap.boundFams, Heap.alloc]; rw [if_neg (by omega)]; exact ⟨rfl, rfl⟩
  · intro i o; have := o.1; rw [← K.par i o]; simp only [Heap.par, Heap.alloc]; rw [if_neg (by omega)]
  · intro i si lk e; have := hS i si; simp only [Heap.alloc]; rw [if_neg (by omega)]; exact K.link i si lk e
  · intro q hq x hx
    simp only [Heap.kids, Heap.alloc] at hx
    split at hx
    · rw [hn] at hx; cases hx
    · exact K.kids q hq x hx

theorem LoadKeeps.setParent (K : LoadKeeps fo h S g) {x : Id} {r : Option PRef} (ho : ¬ Own h x) : LoadKeeps fo h S (g.setParent x r) :=
  K.modify (fun _ => ⟨rfl, rfl⟩) (fun _ _ => ⟨rfl, rfl, rfl⟩) (fun o => absurd o ho) (fun _ => rfl) fun hq y hy => K.kids x hq y hy

theorem LoadKeeps.appendItem (K : LoadKeeps fo h S g) {p x : Id} (hp : Open h p) (ho : ¬ Own h x) : LoadKeeps fo h S (ITree.appendItem g p x) := by
  have all : ∀ y ∈ g.kids p, ¬ Own h y := K.kids p hp
  unfold ITree.appendItem
  dsimp only
  split
  · refine LoadKeeps.setParent (K.modify (fun _ => ⟨rfl, rfl⟩) (fun a b => ?_) (fun _ => rfl) (fun _ => rfl) ?_) ho
    · rw [hp a] at b; cases b
    · intro _ y hy; simp only [List.mem_singleton] at hy; rw [hy]; exact ho
  · refine LoadKeeps.setParent ?_ ho
    have K1 : LoadKeeps fo h S (g.setItems p (g.kids p ++ [x])) := by
      refine K.modify (fun _ => ⟨rfl, rfl⟩) (fun a b => ?_) (fun _ => rfl) (fun _ => rfl) ?_
      · rw [hp a] at b; cases b
      · intro _ y hy
        rcases List.mem_append.1 hy with h1 | h1
        · exact all y h1
        · simp only [List.mem_singleton] at h1; rw [h1]; exact ho
    refine K1.modify (fun _ => ⟨rfl, rfl⟩) (fun a b => ?_) (fun _ => rfl) (fun _ => rfl) ?_
    · rw [hp a] at b; cases b
    · intro hq y hy; exact K1.kids p hq y hy

mutual
theorem LoadKeeps.buildKids (hS : ∀ i, S i → i < h.next) : ∀ (ts : List Tree) {g : Heap} {q : Id}, LoadKeeps fo h S g → Open h q → LoadKeeps fo h S (ITree.buildKids g q ts)
  | [], g, q, K, hq => by simpa [ITree.buildKids] using K
  | k :: rest, g, q, K, hq => by
    simp only [ITree.buildKids]
    exact LoadKeeps.buildKids hS rest (LoadKeeps.buildOne hS k K hq) hq
theorem LoadKeeps.buildOne (hS : ∀ i, S i → i < h.next) : ∀ (t : Tree) {g : Heap} {q : Id}, LoadKeeps fo h S g → Open h q → LoadKeeps fo h S (ITree.buildOne g q t)
  | .node i t v f l ks, g, q, K, hq => by
    obtain ⟨A, B, C⟩ := K.alloc (n := copyNode (.node i t v f l ks)) rfl hS
    simp only [ITree.buildOne]
    exact LoadKeeps.buildKids hS ks (A.appendItem hq C) B
end

theorem LoadKeeps.build (hS : ∀ i, S i → i < h.next) (K : LoadKeeps fo h S g) (t : Tree) : LoadKeeps fo h S (ITree.build g t).1 ∧ h.next ≤ (ITree.build g t).2 := by
  obtain ⟨A, B, C⟩ := K.alloc (n := copyNode t) (by cases t; rfl) hS
  unfold ITree.build
  exact ⟨LoadKeeps.buildKids hS _ A B, by simp only [Heap.alloc]; exact K.next⟩

theorem itemsLoop_cache (f : Id → Bool) : ∀ (l : List Id) (h : Heap) (cs : List (Tag × Nat)), CEq h (itemsLoop f h l cs).1
  | [], h, cs => CEq.refl h
  | x :: xs, h, cs => by
    unfold itemsLoop
    split
    · exact CEq.refl h
    · next n cs' _ =>
      split
      · exact CEq.refl h
      · next r hr =>
        split
        · exact CEq.refl h
        · next hfz =>
          have A := itemsLoop_cache f xs (h.setParent x (some { r with famC := n })) cs'
          dsimp only
          generalize itemsLoop f (h.setParent x (some { r with famC := n })) xs cs' = u at A ⊢
          obtain ⟨h1, u⟩ := u
          dsimp only at A ⊢
          have B : CEq h (h.setParent x (some { r with famC := n })) := by
            refine ⟨rfl, fun j => ?_, fun j => ?_⟩
            · simp only [node_setParent]; split <;> rfl
            · simp only [parent_setParent]
              split
              · next e => subst e; rw [hr]; simp [PEq]
              · exact PEq.refl _
          split <;> exact B.trans A


theorem itemsLoop_mem (f : Id → Bool) : ∀ (l : List Id) (h : Heap) (cs : List (Tag × Nat)) (r : List ((Tag × Nat) × Id)), (itemsLoop f h l cs).2 = .ok r → ∀ e ∈ r, e.2 ∈ l
  | [], h, cs, r, e => by
    simp only [itemsLoop, Except.ok.injEq] at e; subst e; simp
  | x :: xs, h, cs, r, e => by
    unfold itemsLoop at e
    split at e
    · cases e
    · next n cs' _ =>
      split at e
      · cases e
      · next q _ =>
        split at e
        · cases e
        · have A := itemsLoop_mem f xs (h.setParent x (some { q with famC := n })) cs'
          dsimp only at e
          generalize itemsLoop f (h.setParent x (some { q with famC := n })) xs cs' = u at A e
          obtain ⟨h1, u⟩ := u
          cases u with
          | error _ => cases e
          | ok l =>
            simp only [Except.ok.injEq] at e
            have A := A l rfl
            subst e
            intro y hy
            split at hy
            · rcases List.mem_cons.1 hy with rfl | hy
              · exact List.mem_cons_self
              · exact List.mem_cons_of_mem _ (A y hy)
            · exact List.mem_cons_of_mem _ (A y hy)

theorem dictPut_mem {α : Type} (k : LKey) (v : Option α) : ∀ (d : List (LEntry α)) (e : LEntry α), e ∈ dictPut k v d → e = (k, v) ∨ e ∈ d
  | [], e, he => Or.inl (by simpa [dictPut] using he)
  | (k', v') :: r, e, he => by
    rw [dictPut] at he
    split at he
    · rcases List.mem_cons.1 he with rfl | he
      · exact Or.inl rfl
      · exact Or.inr (List.mem_cons_of_mem _ he)
    · rcases List.mem_cons.1 he with rfl | he
      · exact Or.inr List.mem_cons_self
      · rcases dictPut_mem k v r e he with h1 | h1
        · exact Or.inl h1
        · exact Or.inr (List.mem_cons_of_mem _ h1)

theorem foldPut_mem {α : Type} : ∀ (l d : List (LEntry α)) (e : LEntry α), e ∈ l.foldl (fun d e => dictPut e.1 e.2 d) d → e ∈ l ∨ e ∈ d
  | [], d, e, he => Or.inr he
  | a :: l, d, e, he => by
    rcases foldPut_mem l _ e he with h1 | h1
    · exact Or.inl (List.mem_cons_of_mem _ h1)
    · rcases dictPut_mem _ _ _ _ h1 with h2 | h2
      · exact Or.inl (by rw [h2]; exact List.mem_cons_self)
      · exact Or.inr h2

theorem localItems_mem {g : Heap} {l : List (LKey × Id)} {k : LKey} {x : Id} (he : (k, some x) ∈ localItems g l) : ∃ k', (k', x) ∈ l := by
  unfold localItems at he
  rcases foldPut_mem _ _ _ he with h1 | h1
  · obtain ⟨⟨k1, o⟩, h2, h3⟩ := List.mem_flatMap.1 h1
    cases o with
    | none => simp [entryOf] at h3
    | some y =>
      have : x = y := by
        simp only [entryOf] at h3
        split at h3
        · unfold phEntry at h3
          split at h3
          · split at h3
            · simp at h3
            · cases h3
          · cases h3
        · simp only [List.mem_singleton, Prod.mk.injEq, Option.some.injEq] at h3; exact h3.2
      subst this
      obtain ⟨f, h4⟩ := localEntries_mem _ _ _ _ h2
      simp only [List.mem_map, Prod.mk.injEq] at h4
      obtain ⟨a, h5, -, -, rfl⟩ := h4
      exact ⟨a.1, h5⟩
  · cases h1

variable (hS : ∀ i, S i → Own h i ∧ h.isLinkRoot i = true)
include hS

theorem LoadKeeps.linkedItem {load : Heap → Id → Res Bool} (HL : ∀ g x, LoadKeeps fo h S g → g.isLinkRoot x = true → LoadKeeps fo h S (load g x).1) (K : LoadKeeps fo h S g) (c : Id) :
    LoadKeeps fo h S (ITree.linkedItem load g c).1 ∧ ∀ x, (ITree.linkedItem load g c).2 = .ok x → ¬ Own h x := by
  have hS' : ∀ i, S i → i < h.next := fun i si => (hS i si).1.1
  unfold ITree.linkedItem
  split
  · next hr =>
    have A := HL g c K hr
    dsimp only
    generalize load g c = r at A ⊢
    obtain ⟨g1, r⟩ := r
    dsimp only at A ⊢
    split
    · exact ⟨A, fun _ e => by cases e⟩
    · exact ⟨A, fun _ e => by cases e⟩
    · obtain ⟨B, hb⟩ := A.build hS' (g1.tree c)
      refine ⟨LoadKeeps.modify (g := (ITree.build g1 (g1.tree c)).1) (q := (ITree.build g1 (g1.tree c)).2) (f := fun n => { n with flags := n.flags ||| Flags.linked }) B
        (fun hl => absurd hl (by omega)) (fun _ _ => ⟨rfl, rfl, rfl⟩) (fun _ => rfl) (fun _ => rfl) (fun hq y hy => B.kids _ hq y hy), ?_⟩
      intro x e o
      simp only [Except.ok.injEq] at e
      have := o.1
      have : (ITree.build g1 (g1.tree c)).2 = x := e
      omega
  · split
    · next hl =>
      refine ⟨K, fun x e o => ?_⟩
      simp only [Except.ok.injEq] at e; subst e
      rw [K.flags c o.1] at hl
      rw [o.2.1] at hl; cases hl
    · split
      · next U _ =>
        obtain ⟨B, hb⟩ := K.build hS' U
        refine ⟨B, fun x e o => ?_⟩
        simp only [Except.ok.injEq] at e
        have := o.1
        omega
      · exact ⟨K, fun _ e => by cases e⟩

theorem LoadKeeps.putOut (K : LoadKeeps fo h S g) {p new : Id} (hp : Open h p) (hn : ¬ Own h new) (o : LOut Id) (ho : ∀ x k c, o = .old x k c → ¬ Own h x) : LoadKeeps fo h S (ITree.putOut new p g o) := by
  cases o with
  | new k => exact K.appendItem hp hn
  | old x k c =>
    have hx := ho x k c rfl
    refine LoadKeeps.appendItem ?_ hp hx
    split
    · exact K.modify (fun _ => ⟨rfl, rfl⟩) (fun _ _ => ⟨rfl, rfl, rfl⟩) (fun _ => rfl) (fun si => absurd (hS x si).1 hx) fun hq y hy => K.kids _ hq y hy
    · exact K

theorem LoadKeeps.putAll {p new : Id} (hp : Open h p) (hn : ¬ Own h new) : ∀ (os : List (LOut Id)) {g : Heap}, LoadKeeps fo h S g → (∀ x k c, LOut.old x k c ∈ os → ¬ Own h x) →
    LoadKeeps fo h S (os.foldl (ITree.putOut new p) g)
  | [], g, K, _ => K
  | o :: os, g, K, ho => by
    refine LoadKeeps.putAll hp hn os (K.putOut hS hp hn o fun x k c e => ho x k c (by rw [e]; exact List.mem_cons_self)) fun x k c hm => ho x k c (List.mem_cons_of_mem _ hm)

/-- the loop over the children of the source: everything outside is kept, and a link root of the circle among them stops it -/
theorem LoadKeeps.loadLoop {Q : Prop} {load : Heap → Id → Res Bool} (HL : ∀ g x, LoadKeeps fo h S g → g.isLinkRoot x = true → LoadKeeps fo h S (load g x).1)
    (HE : Q → ∀ g c, LoadKeeps fo h S g → S c → ∃ e, (load g c).2 = .error e) {p s : Id} (hp : Open h p) : ∀ (cs : List Id) {g : Heap} (E : List (LEntry Id)) (ks : List LKey), LoadKeeps fo h S g →
    (∀ k x, (k, some x) ∈ E → ¬ Own h x) → LoadKeeps fo h S (ITree.loadLoop load p s g cs E ks).1 ∧ (Q → (∃ c ∈ cs, S c) → ∃ e, (ITree.loadLoop load p s g cs E ks).2 = .error e) ∧
      ∀ r, (ITree.loadLoop load p s g cs E ks).2 = .ok r → ∀ k x, (k, some x) ∈ r.1 → ¬ Own h x
  | [], g, E, ks, K, hE => ⟨K, fun _ ⟨_, hc, _⟩ => (by cases hc), fun r e => by simp only [ITree.loadLoop, Except.ok.injEq] at e; subst e; exact hE⟩
  | c :: cs, g, E, ks, K, hE => by
    have A := K.linkedItem hS HL c
    have B : Q → S c → ∃ e, (ITree.linkedItem load g c).2 = .error e := by
      intro q sc
      have hr : g.isLinkRoot c = true := by rw [K.root_iff (hS c sc).1.1]; exact (hS c sc).2
      obtain ⟨e, he⟩ := HE q g c K sc
      unfold ITree.linkedItem
      rw [if_pos hr]
      dsimp only
      rw [he]
      cases e <;> exact ⟨_, rfl⟩
    unfold ITree.loadLoop
    dsimp only
    generalize ITree.linkedItem load g c = n at A B ⊢
    obtain ⟨g1, n⟩ := n
    cases n with
    | error e => exact ⟨A.1, fun _ _ => ⟨e, rfl⟩, fun r e => by cases e⟩
    | ok x =>
      have hx := A.2 x rfl
      have nc : Q → ¬ S c := fun q sc => by obtain ⟨e, he⟩ := B q sc; cases he
      have A2 : LoadKeeps fo h S (g1.tagIdx c).1 := A.1.ceq (tagIdx_ceq g1 c)
      dsimp only
      generalize g1.tagIdx c = t at A2 ⊢
      obtain ⟨g2, t⟩ := t
      have rest : Q → (∃ d ∈ c :: cs, S d) → ∃ d ∈ cs, S d := by
        rintro q ⟨d, hd, sd⟩
        rcases List.mem_cons.1 hd with rfl | hd
        · exact absurd sd (nc q)
        · exact ⟨d, hd, sd⟩
      cases t with
      | error e => exact ⟨A2, fun _ _ => ⟨e, rfl⟩, fun r e => by cases e⟩
      | ok t =>
        cases t with
        | none => exact ⟨A2, fun _ _ => ⟨_, rfl⟩, fun r e => by cases e⟩
        | bare _ => exact ⟨A2, fun _ _ => ⟨_, rfl⟩, fun r e => by cases e⟩
        | pair t m =>
          dsimp only
          split
          · obtain ⟨a, b, d⟩ := LoadKeeps.loadLoop HL HE (s := s) hp cs (g := ((collect (fun k => containsTarget g2 s (.key k.1 (.int k.2))) (t, m.toNat) E []).map (·.2)).foldl (ITree.putOut x p) g2)
              (removeKeys ((collect (fun k => containsTarget g2 s (.key k.1 (.int k.2))) (t, m.toNat) E []).map (·.1)) E) (ks ++ [(t, m.toNat)])
              (LoadKeeps.putAll hS hp hx _ A2 (fun z k cv hz => by
                rcases collect_entry _ _ _ _ _ _ _ hz with h1 | h1
                · cases h1
                · exact hE k z h1)) (fun k z hz => hE k z (List.mem_filter.1 hz).1)
            exact ⟨a, fun q hc => b q (rest q hc), d⟩
          · obtain ⟨a, b, d⟩ := LoadKeeps.loadLoop HL HE (s := s) hp cs (g := ITree.appendItem g2 p x) E (ks ++ [(t, m.toNat)]) (A2.appendItem hp hx) hE
            exact ⟨a, fun q hc => b q (rest q hc), d⟩

theorem LoadKeeps.takeOver {Q : Prop} (hQ : Q ∨ fo = true) {load : Heap → Id → Res Bool} (HL : ∀ g x, LoadKeeps fo h S g → g.isLinkRoot x = true → LoadKeeps fo h S (load g x).1)
    (HE : Q → ∀ g c, LoadKeeps fo h S g → S c → ∃ e, (load g c).2 = .error e) (K : LoadKeeps fo h S g) {p s : Id} (hp : Open h p)
    (hs : S p → s < h.next ∧ h.isLinkRoot s = false ∧ ∃ c ∈ h.kids s, S c) : LoadKeeps fo h S (ITree.takeOver load g p s).1 ∧ (Q → S p → ∃ e, (ITree.takeOver load g p s).2 = .error e) := by
  unfold ITree.takeOver numberKids
  have C := itemsLoop_cache (fun _ => true) (g.kids p) g ((g.kids p).map fun c => (g.tag c, 0))
  have M := itemsLoop_mem (fun _ => true) (g.kids p) g ((g.kids p).map fun c => (g.tag c, 0))
  have hk := K.kids p hp
  dsimp only
  generalize itemsLoop (fun _ => true) g (g.kids p) ((g.kids p).map fun c => (g.tag c, 0)) = r at C M ⊢
  obtain ⟨g1, r⟩ := r
  have K1 := K.ceq C
  cases r with
  | error e => exact ⟨K1, fun _ _ => ⟨e, rfl⟩⟩
  | ok l =>
    have hl : ∀ k x, (k, some x) ∈ localItems g1 l → ¬ Own h x := by
      intro k x he
      obtain ⟨k', h1⟩ := localItems_mem he
      exact hk x (M l rfl _ h1)
    have K2 : LoadKeeps fo h S (dropKids g1 p) := by
      refine K1.modify (fun _ => ⟨rfl, rfl⟩) (fun a b => ?_) (fun _ => rfl) (fun _ => rfl) (fun _ y hy => by cases hy)
      rw [hp a] at b; cases b
    obtain ⟨A, B, D⟩ := LoadKeeps.loadLoop hS HL HE (s := s) hp ((dropKids g1 p).kids s) (localItems g1 l) [] K2 hl
    dsimp only
    generalize ITree.loadLoop load p s (dropKids g1 p) ((dropKids g1 p).kids s) (localItems g1 l) [] = q at A B D ⊢
    obtain ⟨g3, q⟩ := q
    cases q with
    | error e => exact ⟨A, fun _ _ => ⟨e, rfl⟩⟩
    | ok q =>
      obtain ⟨E', ks⟩ := q
      have nS : Q → ¬ S p := by
        intro q sp
        obtain ⟨s1, s2, s3⟩ := hs sp
        rw [← (K2.node s s1 s2).1] at s3
        obtain ⟨e, he⟩ := B q s3
        cases he
      have hD := D (E', ks) rfl
      have F : ∀ (xs : List Id) {g : Heap}, LoadKeeps fo h S g → (∀ x ∈ xs, ¬ Own h x) → LoadKeeps fo h S (xs.foldl (fun h x => ITree.appendItem h p x) g) := by
        intro xs
        induction xs with
        | nil => intro g K _; exact K
        | cons y ys ih => intro g K hy; exact ih (K.appendItem hp (hy y List.mem_cons_self)) fun z hz => hy z (List.mem_cons_of_mem _ hz)
      have K4 := F (E'.filterMap (·.2)) A (fun x hx => by
        obtain ⟨⟨k, o⟩, h1, h2⟩ := List.mem_filterMap.1 hx
        simp only at h2; subst h2
        exact hD k x h1)
      dsimp only
      exact ⟨LoadKeeps.modifyL (q := p) (f := fun n => { n with link := n.link.map fun l => { l with tags := (ks.map (·.1)).eraseDups, keys := ks, loaded := true } }) K4 (fun _ => ⟨rfl, rfl⟩) (fun _ _ => ⟨rfl, rfl, rfl⟩) (fun _ => rfl) (fun si lk e => by
          rcases hQ with q | hf
          · exact absurd si (nS q)
          · refine ⟨{ lk with tags := (ks.map (·.1)).eraseDups, keys := ks, loaded := true }, ?_, rfl, rfl, fun c => by rw [hf] at c; cases c⟩
            dsimp only at e ⊢
            rw [e]; rfl) fun hq y hy => K4.kids _ hq y hy, fun q sp => absurd sp (nS q)⟩

theorem LoadKeeps.loadActive {env : LinkEnv} (HF : ∀ g q, LoadKeeps fo h S g → LoadKeeps fo h S (env.find g q).1) (K : LoadKeeps fo h S g) (p : Id) (lk : LinkSt) (force : Bool) :
    LoadKeeps fo h S (ITree.loadActive env g p lk force).1 := by
  unfold ITree.loadActive
  split
  · exact K
  · split
    · exact K
    · exact K
    · split
      · exact K
      · have A := HF g p K
        dsimp only
        generalize env.find g p = r at A ⊢
        obtain ⟨g1, r⟩ := r
        dsimp only at A ⊢
        split
        · exact A
        · next s =>
          split
          · exact A
          · split
            · exact A
            · have B : LoadKeeps fo h S (keysOf g1 s fun _ => true).1 := by
                unfold keysOf itemsOf
                dsimp only
                split
                · exact A
                · exact A.ceq (itemsLoop_cache _ _ _ _)
              generalize (keysOf g1 s fun _ => true) = q at B ⊢
              obtain ⟨g2, q⟩ := q
              dsimp only at B ⊢
              split <;> exact B

theorem LoadKeeps.loadLinks {env : LinkEnv} {force : Bool} {Q : Prop} (hQ : Q ∨ fo = true) (hq : Q → fo = force) (HF : ∀ g q, LoadKeeps fo h S g → LoadKeeps fo h S (env.find g q).1) (HT : ∀ g p, LoadKeeps fo h S g → S p →
      ∃ s, (env.find g p).2 = .ok s ∧ s < h.next ∧ h.isLinkRoot s = false ∧ ∃ c ∈ h.kids s, S c) (HA : ∀ p, S p → ∃ lk, (h.node p).link = some lk ∧ (fo = true ∨ lk.loaded = false)) :
    ∀ (n : Nat) (g : Heap) (p : Id), LoadKeeps fo h S g → g.isLinkRoot p = true → LoadKeeps fo h S (ITree.loadLinks env force n g p).1 ∧ (Q → S p → ∃ e, (ITree.loadLinks env force n g p).2 = .error e)
  | 0, g, p, K, _ => ⟨K, fun _ _ => ⟨_, rfl⟩⟩
  | n + 1, g, p, K, hr => by
    have IH := LoadKeeps.loadLinks hQ hq HF HT HA n
    have hL : Q → S p → ∃ lk, (g.node p).link = some lk ∧ (force = true ∨ lk.loaded = false) := by
      intro q sp
      obtain ⟨lk, e, a⟩ := HA p sp
      obtain ⟨lk', h1, -, -, h2⟩ := K.link p sp lk e
      refine ⟨lk', h1, ?_⟩
      rw [← hq q]
      cases hf : fo with
      | true => exact Or.inl rfl
      | false =>
        rw [hf] at a
        exact Or.inr (by rw [h2 hf]; rcases a with a | a; cases a; exact a)
    unfold ITree.loadLinks
    split
    · next hn => exact ⟨K, fun q sp => by obtain ⟨lk, e, -⟩ := hL q sp; rw [hn] at e; cases e⟩
    · next lk hl =>
      have hact : Q → S p → ITree.loadActive env g p lk force = (g, .ok true) := by
        intro q sp
        obtain ⟨lk', e, a⟩ := hL q sp
        rw [hl] at e; cases e
        unfold ITree.loadActive
        rw [if_pos (by rcases a with a | a <;> simp [a])]
      have A := K.loadActive hS HF p lk force
      dsimp only
      generalize ITree.loadActive env g p lk force = a at A hact ⊢
      obtain ⟨g1, a⟩ := a
      cases a with
      | error e => exact ⟨A, fun _ _ => ⟨e, rfl⟩⟩
      | ok b =>
        cases b with
        | false => exact ⟨A, fun q sp => by have := hact q sp; simp at this⟩
        | true =>
          have B := HF g1 p A
          have T := HT g1 p A
          dsimp only
          generalize env.find g1 p = f at B T ⊢
          obtain ⟨g2, f⟩ := f
          cases f with
          | error e => exact ⟨B, fun _ _ => ⟨e, rfl⟩⟩
          | ok s =>
            refine B.takeOver hS hQ (fun g x K hx => (IH g x K hx).1) (fun q g c K sc => (IH g c K (by rw [K.root_iff (hS c sc).1.1]; exact (hS c sc).2)).2 q sc) (K.open_of hr) fun sp => ?_
            obtain ⟨s', e, rest⟩ := T sp
            cases e
            exact rest

end
end ITree
