import Verif.Proofs.Deep
/-
The path iterators.
-/
namespace ITree

section generic
variable {l : Labeller}

mutual
/-- top-down list of (path, item); `tl p c` is the last path element of the child `c` of `p` -/
def Tree.preP (tl : Id → Id → l.L) (f : Id → Bool) (pfx : List l.L) (p : Id) : Tree → List (List l.L × Id)
  | .node i _ _ _ _ ks => if f i then (pfx ++ [tl p i], i) :: Tree.prePL tl f (pfx ++ [tl p i]) i ks else []
def Tree.prePL (tl : Id → Id → l.L) (f : Id → Bool) (pfx : List l.L) (p : Id) : List Tree → List (List l.L × Id)
  | [] => []
  | k :: ks => Tree.preP tl f pfx p k ++ Tree.prePL tl f pfx p ks
end
mutual
/-- bottom-up list of (path, item) -/
def Tree.postP (tl : Id → Id → l.L) (f : Id → Bool) (pfx : List l.L) (p : Id) : Tree → List (List l.L × Id)
  | .node i _ _ _ _ ks => if f i then Tree.postPL tl f (pfx ++ [tl p i]) i ks ++ [(pfx ++ [tl p i], i)] else []
def Tree.postPL (tl : Id → Id → l.L) (f : Id → Bool) (pfx : List l.L) (p : Id) : List Tree → List (List l.L × Id)
  | [] => []
  | k :: ks => Tree.postP tl f pfx p k ++ Tree.postPL tl f pfx p ks
end

/-- The labeller counts correctly: `st p j` is the counter of the level of `p` after `j` children. -/
structure GoodLab (l : Labeller) (rev : Bool) (h0 : Heap) (tl : Id → Id → l.L) (st : Id → Nat → l.σ) : Prop where
  enter : ∀ h p, CEq h0 h → h0.kids p ≠ [] → l.enter h p = .ok (st p 0)
  visit : ∀ h p j y, CEq h0 h → (chOf rev h0 p)[j]? = some y → ∃ h', l.visit h y (st p j) = .ok (h', st p (j + 1)) ∧ CEq h h' ∧ l.lab (st p (j + 1)) = tl p y

theorem chOf_nil {rev : Bool} {h : Heap} {x : Id} : chOf rev h x = [] ↔ h.kids x = [] := by
  unfold chOf; split <;> simp
theorem CEq.chOf {h h' : Heap} (H : CEq h h') (rev : Bool) (x : Id) : ITree.chOf rev h' x = ITree.chOf rev h x := by
  simp only [ITree.chOf, H.kids]

variable {rev : Bool} {h0 : Heap} {tl : Id → Id → l.L} {st : Id → Nat → l.σ} {f : Id → Bool} {pfx : List l.L}

theorem path_cons (pfx : List l.L) (lv : l.σ) (lvs : List l.σ) : PSt.path pfx (lv :: lvs) = PSt.path pfx lvs ++ [l.lab lv] := by
  simp [PSt.path]

theorem preP_goes (G : GoodLab l rev h0 tl st) (T : Tree) : Lists (chOf rev h0) T → ∀ p j, (chOf rev h0 p)[j]? = some T.id → ∀ h xs stk lvs, CEq h0 h →
    ∃ h', CEq h0 h' ∧ Goes (prePStep l rev f pfx) ⟨h, .it (T.id :: xs) :: stk, st p j :: lvs⟩ (T.preP tl f (PSt.path pfx lvs) p)
      ⟨h', .it xs :: stk, st p (j + 1) :: lvs⟩ := by
  induction T using Tree.ind with
  | H i t v g lk ks ih =>
    intro H p j hj h xs stk lvs hc
    have hch : chOf rev h0 i = ks.map Tree.id := H.root
    have hL : ∀ (ks' : List Tree) (j : Nat), (∀ k ∈ ks', k ∈ ks) → (∀ m, (ks'.map Tree.id)[m]? = (chOf rev h0 i)[j + m]?) → ∀ h stk lvs, CEq h0 h →
        ∃ h', CEq h0 h' ∧ Goes (prePStep l rev f pfx) ⟨h, .it (ks'.map Tree.id) :: stk, st i j :: lvs⟩ (Tree.prePL tl f (PSt.path pfx lvs) i ks')
          ⟨h', stk, lvs⟩ := by
      intro ks'
      induction ks' with
      | nil => intro j _ _ h stk lvs hc; exact ⟨h, hc, Goes.one (by simp [prePStep, Tree.prePL])⟩
      | cons k r ihr =>
        intro j hk hm h stk lvs hc
        have h1 : (chOf rev h0 i)[j]? = some k.id := by have := hm 0; simpa using this.symm
        obtain ⟨h', hc', g1⟩ := ih k (hk k (by simp)) (H.kid (hk k (by simp))) i j h1 h (r.map Tree.id) stk lvs hc
        obtain ⟨h'', hc'', g2⟩ := ihr (j + 1) (fun k' h' => hk k' (by simp [h'])) (fun m => by
          have := hm (m + 1); simp only [List.map_cons, List.getElem?_cons_succ] at this; rw [this]; congr 1; omega) h' stk lvs hc'
        exact ⟨h'', hc'', g1.trans g2⟩
    simp only [Tree.id] at hj ⊢
    obtain ⟨h1, v1, v2, v3⟩ := G.visit h p j i hc hj
    have hc1 := hc.trans v2
    simp only [Tree.preP]
    by_cases hf : f i = true
    · rw [if_pos hf]
      by_cases hk : h0.kids i = []
      · have : ks = [] := by rw [chOf_nil.2 hk] at hch; simpa using hch.symm
        subst this
        refine ⟨h1, hc1, Goes.one ?_⟩
        have hk1 : h1.kids i = [] := by rw [hc1.kids]; exact hk
        simp only [prePStep, v1, hf, if_true, hk1, path_cons, v3, Tree.prePL]
      · have hk1 : h1.kids i ≠ [] := by rw [hc1.kids]; exact hk
        obtain ⟨h2, hc2, g2⟩ := hL ks 0 (fun _ h => h) (fun m => by rw [hch]; simp) h1 (.it xs :: stk) (st p (j + 1) :: lvs) hc1
        refine ⟨h2, hc2, Goes.cons (o := [(PSt.path pfx lvs ++ [tl p i], i)]) (t := ⟨h1, .it (ks.map Tree.id) :: .it xs :: stk, st i 0 :: st p (j + 1) :: lvs⟩) ?_ ?_⟩
        · simp only [prePStep, v1, hf, if_true, if_neg hk1, G.enter h1 i hc1 hk, path_cons, v3, hc1.chOf, hch]
        · rw [path_cons, v3] at g2; exact g2
    · rw [if_neg hf]
      exact ⟨h1, hc1, Goes.one (by simp only [prePStep, v1, hf]; rfl)⟩

theorem prePL_goes (G : GoodLab l rev h0 tl st) {T : Tree} (H : Lists (chOf rev h0) T) {h : Heap} (hc : CEq h0 h) :
    ∃ s', CEq h0 s'.h ∧ Delivers (fun n => gen (prePStep l rev f pfx) n ⟨h, [.it (chOf rev h0 T.id)], [st T.id 0]⟩) (Tree.prePL tl f pfx T.id T.kids, .ok s') := by
  have hL : ∀ (ks' : List Tree) (j : Nat), (∀ k ∈ ks', k ∈ T.kids) → (∀ m, (ks'.map Tree.id)[m]? = (chOf rev h0 T.id)[j + m]?) → ∀ h stk lvs, CEq h0 h →
      ∃ h', CEq h0 h' ∧ Goes (prePStep l rev f pfx) ⟨h, .it (ks'.map Tree.id) :: stk, st T.id j :: lvs⟩ (Tree.prePL tl f (PSt.path pfx lvs) T.id ks')
        ⟨h', stk, lvs⟩ := by
    intro ks'
    induction ks' with
    | nil => intro j _ _ h stk lvs hc; exact ⟨h, hc, Goes.one (by simp [prePStep, Tree.prePL])⟩
    | cons k r ihr =>
      intro j hk hm h stk lvs hc
      have h1 : (chOf rev h0 T.id)[j]? = some k.id := by have := hm 0; simpa using this.symm
      obtain ⟨h', hc', g1⟩ := preP_goes (f := f) (pfx := pfx) G k (H.kid (hk k (by simp))) T.id j h1 h (r.map Tree.id) stk lvs hc
      obtain ⟨h'', hc'', g2⟩ := ihr (j + 1) (fun k' h' => hk k' (by simp [h'])) (fun m => by
        have := hm (m + 1); simp only [List.map_cons, List.getElem?_cons_succ] at this; rw [this]; congr 1; omega) h' stk lvs hc'
      exact ⟨h'', hc'', g1.trans g2⟩
  obtain ⟨h', hc', g⟩ := hL T.kids 0 (fun _ h => h) (fun m => by rw [H.root]; simp) h [] [] hc
  refine ⟨⟨h', [], []⟩, hc', ?_⟩
  rw [H.root]
  have : PSt.path pfx ([] : List l.σ) = pfx := by simp [PSt.path]
  rw [this] at g
  exact g.finish (by simp [prePStep])

theorem postP_goes (G : GoodLab l rev h0 tl st) (T : Tree) : Lists (chOf rev h0) T → ∀ p j, (chOf rev h0 p)[j]? = some T.id → ∀ h xs stk lvs, CEq h0 h →
    ∃ h', CEq h0 h' ∧ Goes (postPStep l rev f pfx) ⟨h, .it (T.id :: xs) :: stk, st p j :: lvs⟩ (T.postP tl f (PSt.path pfx lvs) p)
      ⟨h', .it xs :: stk, st p (j + 1) :: lvs⟩ := by
  induction T using Tree.ind with
  | H i t v g lk ks ih =>
    intro H p j hj h xs stk lvs hc
    have hch : chOf rev h0 i = ks.map Tree.id := H.root
    have hL : ∀ (ks' : List Tree) (j : Nat), (∀ k ∈ ks', k ∈ ks) → (∀ m, (ks'.map Tree.id)[m]? = (chOf rev h0 i)[j + m]?) → ∀ h stk lvs, CEq h0 h →
        ∃ h' j', CEq h0 h' ∧ Goes (postPStep l rev f pfx) ⟨h, .it (ks'.map Tree.id) :: stk, st i j :: lvs⟩ (Tree.postPL tl f (PSt.path pfx lvs) i ks')
          ⟨h', stk, st i j' :: lvs⟩ := by
      intro ks'
      induction ks' with
      | nil => intro j _ _ h stk lvs hc; exact ⟨h, j, hc, Goes.one (by simp [postPStep, Tree.postPL])⟩
      | cons k r ihr =>
        intro j hk hm h stk lvs hc
        have h1 : (chOf rev h0 i)[j]? = some k.id := by have := hm 0; simpa using this.symm
        obtain ⟨h', hc', g1⟩ := ih k (hk k (by simp)) (H.kid (hk k (by simp))) i j h1 h (r.map Tree.id) stk lvs hc
        obtain ⟨h'', j', hc'', g2⟩ := ihr (j + 1) (fun k' h' => hk k' (by simp [h'])) (fun m => by
          have := hm (m + 1); simp only [List.map_cons, List.getElem?_cons_succ] at this; rw [this]; congr 1; omega) h' stk lvs hc'
        exact ⟨h'', j', hc'', g1.trans g2⟩
    simp only [Tree.id] at hj ⊢
    obtain ⟨h1, v1, v2, v3⟩ := G.visit h p j i hc hj
    have hc1 := hc.trans v2
    simp only [Tree.postP]
    by_cases hf : f i = true
    · rw [if_pos hf]
      by_cases hk : h0.kids i = []
      · have : ks = [] := by rw [chOf_nil.2 hk] at hch; simpa using hch.symm
        subst this
        refine ⟨h1, hc1, Goes.one ?_⟩
        have hk1 : h1.kids i = [] := by rw [hc1.kids]; exact hk
        simp only [postPStep, v1, hf, if_true, hk1, path_cons, v3, Tree.postPL, List.nil_append]
      · have hk1 : h1.kids i ≠ [] := by rw [hc1.kids]; exact hk
        obtain ⟨h2, j', hc2, g2⟩ := hL ks 0 (fun _ h => h) (fun m => by rw [hch]; simp) h1 (.mark i :: .it xs :: stk) (st p (j + 1) :: lvs) hc1
        refine ⟨h2, hc2, Goes.cons (o := []) (t := ⟨h1, .it (ks.map Tree.id) :: .mark i :: .it xs :: stk, st i 0 :: st p (j + 1) :: lvs⟩) ?_ ?_⟩
        · simp only [postPStep, v1, hf, if_true, if_neg hk1, G.enter h1 i hc1 hk, hc1.chOf, hch]
        · rw [path_cons, v3] at g2
          refine g2.trans (Goes.one ?_)
          simp only [postPStep, hf, if_true, List.tail_cons, path_cons, v3]
    · rw [if_neg hf]
      exact ⟨h1, hc1, Goes.one (by simp only [postPStep, v1, hf]; rfl)⟩

theorem postPL_goes (G : GoodLab l rev h0 tl st) {T : Tree} (H : Lists (chOf rev h0) T) {h : Heap} (hc : CEq h0 h) :
    ∃ s', CEq h0 s'.h ∧ Delivers (fun n => gen (postPStep l rev f pfx) n ⟨h, [.it (chOf rev h0 T.id)], [st T.id 0]⟩) (Tree.postPL tl f pfx T.id T.kids, .ok s') := by
  have hL : ∀ (ks' : List Tree) (j : Nat), (∀ k ∈ ks', k ∈ T.kids) → (∀ m, (ks'.map Tree.id)[m]? = (chOf rev h0 T.id)[j + m]?) → ∀ h stk lvs, CEq h0 h →
      ∃ h' j', CEq h0 h' ∧ Goes (postPStep l rev f pfx) ⟨h, .it (ks'.map Tree.id) :: stk, st T.id j :: lvs⟩ (Tree.postPL tl f (PSt.path pfx lvs) T.id ks')
        ⟨h', stk, st T.id j' :: lvs⟩ := by
    intro ks'
    induction ks' with
    | nil => intro j _ _ h stk lvs hc; exact ⟨h, j, hc, Goes.one (by simp [postPStep, Tree.postPL])⟩
    | cons k r ihr =>
      intro j hk hm h stk lvs hc
      have h1 : (chOf rev h0 T.id)[j]? = some k.id := by have := hm 0; simpa using this.symm
      obtain ⟨h', hc', g1⟩ := postP_goes (f := f) (pfx := pfx) G k (H.kid (hk k (by simp))) T.id j h1 h (r.map Tree.id) stk lvs hc
      obtain ⟨h'', j', hc'', g2⟩ := ihr (j + 1) (fun k' h' => hk k' (by simp [h'])) (fun m => by
        have := hm (m + 1); simp only [List.map_cons, List.getElem?_cons_succ] at this; rw [this]; congr 1; omega) h' stk lvs hc'
      exact ⟨h'', j', hc'', g1.trans g2⟩
  obtain ⟨h', j', hc', g⟩ := hL T.kids 0 (fun _ h => h) (fun m => by rw [H.root]; simp) h [] [] hc
  refine ⟨⟨h', [], [st T.id j']⟩, hc', ?_⟩
  rw [H.root]
  have : PSt.path pfx ([] : List l.σ) = pfx := by simp [PSt.path]
  rw [this] at g
  exact g.finish (by simp [postPStep])

/-! the items of the path lists -/

theorem preP_snd (T : Tree) : ∀ (pfx : List l.L) p, (T.preP tl f pfx p).map Prod.snd = T.preF f := by
  induction T using Tree.ind with
  | H i t v g lk ks ih =>
    intro pfx p
    have hL : ∀ pfx : List l.L, (Tree.prePL tl f pfx i ks).map Prod.snd = Tree.preFL f ks := by
      intro pfx
      induction ks with
      | nil => rfl
      | cons k r ihr => simp only [Tree.prePL, Tree.preFL, List.map_append, ih k (by simp), ihr fun k' h' => ih k' (by simp [h'])]
    simp only [Tree.preP, Tree.preF]
    split <;> simp [hL]
theorem prePL_snd (ks : List Tree) (pfx : List l.L) (p : Id) : (Tree.prePL tl f pfx p ks).map Prod.snd = Tree.preFL f ks := by
  induction ks with
  | nil => rfl
  | cons k r ihr => simp only [Tree.prePL, Tree.preFL, List.map_append, preP_snd, ihr]
theorem postP_snd (T : Tree) : ∀ (pfx : List l.L) p, (T.postP tl f pfx p).map Prod.snd = T.postF f := by
  induction T using Tree.ind with
  | H i t v g lk ks ih =>
    intro pfx p
    have hL : ∀ pfx : List l.L, (Tree.postPL tl f pfx i ks).map Prod.snd = Tree.postFL f ks := by
      intro pfx
      induction ks with
      | nil => rfl
      | cons k r ihr => simp only [Tree.postPL, Tree.postFL, List.map_append, ih k (by simp), ihr fun k' h' => ih k' (by simp [h'])]
    simp only [Tree.postP, Tree.postF]
    split <;> simp [hL]
theorem postPL_snd (ks : List Tree) (pfx : List l.L) (p : Id) : (Tree.postPL tl f pfx p ks).map Prod.snd = Tree.postFL f ks := by
  induction ks with
  | nil => rfl
  | cons k r ihr => simp only [Tree.postPL, Tree.postFL, List.map_append, postP_snd, ihr]

/-- the list of labels on the way from `p` down to `y` -/
inductive Leads (h0 : Heap) (tl : Id → Id → l.L) : Id → List l.L → Id → Prop
  | nil (p : Id) : Leads h0 tl p [] p
  | cons {p c y : Id} {r : List l.L} : c ∈ h0.kids p → Leads h0 tl c r y → Leads h0 tl p (tl p c :: r) y

theorem preP_leads (T : Tree) : Lists (chOf rev h0) T → ∀ (pfx : List l.L) p, T.id ∈ h0.kids p → ∀ e ∈ T.preP tl f pfx p, ∃ r, e.1 = pfx ++ r ∧ Leads h0 tl p r e.2 := by
  induction T using Tree.ind with
  | H i t v g lk ks ih =>
    intro H pfx p hp e he
    have hch : chOf rev h0 i = ks.map Tree.id := H.root
    have hL : ∀ ks' : List Tree, (∀ k ∈ ks', k ∈ ks) → ∀ (pfx : List l.L), ∀ e ∈ Tree.prePL tl f pfx i ks', ∃ r, e.1 = pfx ++ r ∧ Leads h0 tl i r e.2 := by
      intro ks'
      induction ks' with
      | nil => intro _ pfx e he; simp [Tree.prePL] at he
      | cons k r ihr =>
        intro hk pfx e he
        simp only [Tree.prePL, List.mem_append] at he
        rcases he with he | he
        · have hin : k.id ∈ h0.kids i := by
            have : k.id ∈ chOf rev h0 i := by rw [hch]; exact List.mem_map_of_mem (hk k (by simp))
            unfold chOf at this; split at this
            · exact List.mem_reverse.1 this
            · exact this
          exact ih k (hk k (by simp)) (H.kid (hk k (by simp))) pfx i hin e he
        · exact ihr (fun k' h' => hk k' (by simp [h'])) pfx e he
    simp only [Tree.preP] at he
    split at he
    · rcases List.mem_cons.1 he with rfl | he
      · exact ⟨[tl p i], rfl, .cons hp (.nil i)⟩
      · obtain ⟨r, e1, e2⟩ := hL ks (fun _ h => h) _ e he
        exact ⟨tl p i :: r, by rw [e1]; simp, .cons hp e2⟩
    · simp at he

theorem postP_leads (T : Tree) : Lists (chOf rev h0) T → ∀ (pfx : List l.L) p, T.id ∈ h0.kids p → ∀ e ∈ T.postP tl f pfx p, ∃ r, e.1 = pfx ++ r ∧ Leads h0 tl p r e.2 := by
  induction T using Tree.ind with
  | H i t v g lk ks ih =>
    intro H pfx p hp e he
    have hch : chOf rev h0 i = ks.map Tree.id := H.root
    have hL : ∀ ks' : List Tree, (∀ k ∈ ks', k ∈ ks) → ∀ (pfx : List l.L), ∀ e ∈ Tree.postPL tl f pfx i ks', ∃ r, e.1 = pfx ++ r ∧ Leads h0 tl i r e.2 := by
      intro ks'
      induction ks' with
      | nil => intro _ pfx e he; simp [Tree.postPL] at he
      | cons k r ihr =>
        intro hk pfx e he
        simp only [Tree.postPL, List.mem_append] at he
        rcases he with he | he
        · have hin : k.id ∈ h0.kids i := by
            have : k.id ∈ chOf rev h0 i := by rw [hch]; exact List.mem_map_of_mem (hk k (by simp))
            unfold chOf at this; split at this
            · exact List.mem_reverse.1 this
            · exact this
          exact ih k (hk k (by simp)) (H.kid (hk k (by simp))) pfx i hin e he
        · exact ihr (fun k' h' => hk k' (by simp [h'])) pfx e he
    simp only [Tree.postP] at he
    split at he
    · rcases List.mem_append.1 he with he | he
      · obtain ⟨r, e1, e2⟩ := hL ks (fun _ h => h) _ e he
        exact ⟨tl p i :: r, by rw [e1]; simp, .cons hp e2⟩
      · simp only [List.mem_singleton] at he; subst he
        exact ⟨[tl p i], rfl, .cons hp (.nil i)⟩
    · simp at he

theorem mem_chOf {rev : Bool} {h : Heap} {x c : Id} : c ∈ chOf rev h x ↔ c ∈ h.kids x := by
  unfold chOf; split
  · exact List.mem_reverse
  · exact .rfl

theorem prePL_leads {T : Tree} (H : Lists (chOf rev h0) T) (pfx : List l.L) : ∀ e ∈ Tree.prePL tl f pfx T.id T.kids, ∃ r, e.1 = pfx ++ r ∧ Leads h0 tl T.id r e.2 := by
  have hL : ∀ ks' : List Tree, (∀ k ∈ ks', k ∈ T.kids) → ∀ e ∈ Tree.prePL tl f pfx T.id ks', ∃ r, e.1 = pfx ++ r ∧ Leads h0 tl T.id r e.2 := by
    intro ks'
    induction ks' with
    | nil => intro _ e he; simp [Tree.prePL] at he
    | cons k r ihr =>
      intro hk e he
      simp only [Tree.prePL, List.mem_append] at he
      rcases he with he | he
      · exact preP_leads k (H.kid (hk k (by simp))) pfx T.id (mem_chOf.1 (by rw [H.root]; exact List.mem_map_of_mem (hk k (by simp)))) e he
      · exact ihr (fun k' h' => hk k' (by simp [h'])) e he
  exact hL T.kids fun _ h => h
theorem postPL_leads {T : Tree} (H : Lists (chOf rev h0) T) (pfx : List l.L) : ∀ e ∈ Tree.postPL tl f pfx T.id T.kids, ∃ r, e.1 = pfx ++ r ∧ Leads h0 tl T.id r e.2 := by
  have hL : ∀ ks' : List Tree, (∀ k ∈ ks', k ∈ T.kids) → ∀ e ∈ Tree.postPL tl f pfx T.id ks', ∃ r, e.1 = pfx ++ r ∧ Leads h0 tl T.id r e.2 := by
    intro ks'
    induction ks' with
    | nil => intro _ e he; simp [Tree.postPL] at he
    | cons k r ihr =>
      intro hk e he
      simp only [Tree.postPL, List.mem_append] at he
      rcases he with he | he
      · exact postP_leads k (H.kid (hk k (by simp))) pfx T.id (mem_chOf.1 (by rw [H.root]; exact List.mem_map_of_mem (hk k (by simp)))) e he
      · exact ihr (fun k' h' => hk k' (by simp [h'])) e he
  exact hL T.kids fun _ h => h

/-- A path helper delivers the items of the corresponding iteration (with the given repetition of the item itself), each with a path leading to it, and changes nothing
but caches. -/
theorem pathHelper_delivers {h : Heap} {T : Tree} {o : IterOpts} (G : GoodLab l o.reverse h tl st) (R : Rep h T)
    (f : Id → Bool) (pfx : List l.L) (twice : Bool) (htw : twice = true → o.up = false ∧ o.reverse = false) :
    ∃ out h', Delivers (fun n => pathHelper l n h T.id pfx f twice o) (out, .ok h') ∧ CEq h h' ∧
      out.map Prod.snd = fullOrder f o T ++ (if twice && o.self && f T.id then [T.id] else []) ∧
      ∀ e ∈ out, ∃ r, e.1 = pfx ++ r ∧ Leads h tl T.id r e.2 := by
  have hv := R.view o.reverse
  have hvid := view_id o.reverse T
  by_cases hs : (o.self && !f T.id) = true
  · refine ⟨[], h, ?_, CEq.refl h, ?_, by simp⟩
    · simp only [pathHelper, hs, if_true]; exact Delivers.const _
    · simp only [Bool.and_eq_true, Bool.not_eq_true'] at hs
      simp [fullOrder, hs.1, hs.2]
  · have hs' : o.self = true → f T.id = true := by intro h1; simp only [h1, Bool.true_and, Bool.not_eq_true', Bool.not_eq_false] at hs; exact hs
    have hme : ∀ e ∈ (if o.self then [(pfx, T.id)] else []), ∃ r, e.1 = pfx ++ r ∧ Leads h tl T.id r e.2 := by
      intro e he; split at he
      · simp only [List.mem_singleton] at he; subst he; exact ⟨[], by simp, .nil _⟩
      · simp at he
    by_cases hk : h.kids T.id = []
    · refine ⟨(if twice then (if o.self then [(pfx, T.id)] else []) ++ (if o.self then [(pfx, T.id)] else []) else (if o.self then [(pfx, T.id)] else [])), h, ?_, CEq.refl h, ?_, ?_⟩
      · simp only [pathHelper, hs, Bool.false_eq_true, if_false, hk, if_true]; exact Delivers.const _
      · have hvk : (T.view o.reverse).kids = [] := by
          have := hv.root; rw [hvid, chOf_nil.2 hk] at this; simpa using this.symm
        have hb : bodyOrder f o T = [] := by simp [bodyOrder, hvk, Tree.postFL, Tree.preFL]
        simp only [fullOrder, hb]
        cases hself : o.self with
        | false => cases twice <;> simp
        | true => have := hs' hself; cases twice <;> simp [this]
      · intro e he; split at he
        · rcases List.mem_append.1 he with he | he <;> exact hme e he
        · exact hme e he
    · obtain ⟨s1, c1, d1⟩ := prePL_goes (f := f) (pfx := pfx) G hv (CEq.refl h)
      obtain ⟨s2, c2, d2⟩ := postPL_goes (f := f) (pfx := pfx) G hv (CEq.refl h)
      have l1 := prePL_leads (tl := tl) (f := f) hv pfx
      have l2 := postPL_leads (tl := tl) (f := f) hv pfx
      have p1 := prePL_snd (tl := tl) (f := f) (T.view o.reverse).kids pfx (T.view o.reverse).id
      have p2 := postPL_snd (tl := tl) (f := f) (T.view o.reverse).kids pfx (T.view o.reverse).id
      rw [hvid] at d1 d2 l1 l2 p1 p2
      by_cases hu : o.up = true
      · have htw' : twice = false := by cases twice with
          | false => rfl
          | true => have := (htw rfl).1; rw [hu] at this; simp at this
        subst htw'
        refine ⟨Tree.postPL tl f pfx T.id (T.view o.reverse).kids ++ (if o.self then [(pfx, T.id)] else []), s2.h, ?_, c2, ?_, ?_⟩
        · simp only [pathHelper, hs, Bool.false_eq_true, if_false, hk, G.enter h T.id (CEq.refl h) hk, hu, if_true]
          exact d2.map _
        · rw [List.map_append, p2]
          cases hself : o.self with
          | false => simp [fullOrder, bodyOrder, hu, hself]
          | true => simp [fullOrder, bodyOrder, hu, hself, hs' hself]
        · intro e he
          rcases List.mem_append.1 he with he | he
          · exact l2 e he
          · exact hme e he
      · have hu' : o.up = false := by simpa using hu
        by_cases hr : o.reverse = true
        · have htw' : twice = false := by cases twice with
            | false => rfl
            | true => have := (htw rfl).2; rw [hr] at this; simp at this
          subst htw'
          refine ⟨Tree.prePL tl f pfx T.id (T.view o.reverse).kids ++ (if o.self then [(pfx, T.id)] else []), s1.h, ?_, c1, ?_, ?_⟩
          · simp only [pathHelper, hs, Bool.false_eq_true, if_false, hk, G.enter h T.id (CEq.refl h) hk, hu']
            have := d1.map (fun r : List (List l.L × Id) × Except Err (PSt l) =>
              match r.2 with
              | .ok s' => (if false || o.reverse then r.1 ++ (if o.self then [(pfx, T.id)] else []) else (if o.self then [(pfx, T.id)] else []) ++ r.1 ++ [], (Except.ok s'.h : Except Err Heap))
              | .error e => (if false || o.reverse then r.1 else (if o.self then [(pfx, T.id)] else []) ++ r.1, .error e))
            simp only [hr, Bool.or_true, if_true] at this ⊢
            exact this
          · rw [List.map_append, p1]
            cases hself : o.self with
            | false => simp [fullOrder, bodyOrder, hu', hself]
            | true => simp [fullOrder, bodyOrder, hu', hr, hself, hs' hself]
          · intro e he
            rcases List.mem_append.1 he with he | he
            · exact l1 e he
            · exact hme e he
        · have hr' : o.reverse = false := by simpa using hr
          refine ⟨(if o.self then [(pfx, T.id)] else []) ++ Tree.prePL tl f pfx T.id (T.view o.reverse).kids ++ (if twice then (if o.self then [(pfx, T.id)] else []) else []), s1.h, ?_, c1, ?_, ?_⟩
          · simp only [pathHelper, hs, Bool.false_eq_true, if_false, hk, G.enter h T.id (CEq.refl h) hk, hu']
            have := d1.map (fun r : List (List l.L × Id) × Except Err (PSt l) =>
              match r.2 with
              | .ok s' => (if false || o.reverse then r.1 ++ (if o.self then [(pfx, T.id)] else []) else (if o.self then [(pfx, T.id)] else []) ++ r.1 ++
                  (if twice then (if o.self then [(pfx, T.id)] else []) else []), (Except.ok s'.h : Except Err Heap))
              | .error e => (if false || o.reverse then r.1 else (if o.self then [(pfx, T.id)] else []) ++ r.1, .error e))
            simp only [hr', Bool.or_false, Bool.false_eq_true, if_false] at this ⊢
            exact this
          · rw [List.map_append, List.map_append, p1]
            cases hself : o.self with
            | false => cases twice <;> simp [fullOrder, bodyOrder, hu', hself]
            | true => cases twice <;> simp [fullOrder, bodyOrder, hu', hr', hself, hs' hself]
          · intro e he
            rcases List.mem_append.1 he with he | he
            · rcases List.mem_append.1 he with he | he
              · exact hme e he
              · exact l1 e he
            · split at he
              · exact hme e he
              · simp at he

end generic

end ITree
