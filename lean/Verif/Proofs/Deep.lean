import Verif.Proofs.Gen
/-
Facts about the items below an item, and the level iterators.
-/
namespace ITree

theorem uniq_parent {h : Heap} (W : WF h) {p q c : Id} (h1 : c ∈ h.kids p) (h2 : c ∈ h.kids q) : p = q := by
  obtain ⟨r, a1, a2, _⟩ := W.kid_parent p c h1
  obtain ⟨r', b1, b2, _⟩ := W.kid_parent q c h2
  rw [a1] at b1
  obtain rfl : r = r' := by simpa using b1
  exact a2.symm.trans b2

theorem below_cases {h : Heap} (W : WF h) {a b y : Id} (h1 : Below h a y) (h2 : Below h b y) : Below h a b ∨ Below h b a := by
  induction h1 with
  | refl => exact .inr h2
  | @step p c hp hc ih =>
    cases h2 with
    | refl => exact .inl (.step hp hc)
    | @step q _ hq hc' =>
      have := uniq_parent W hc hc'
      subst this
      exact ih hq

theorem sibling_disjoint {h : Heap} (W : WF h) (F : Forest h) {p a b y : Id} (ha : a ∈ h.kids p) (hb : b ∈ h.kids p) (hab : a ≠ b)
    (h1 : Below h a y) (h2 : Below h b y) : False := by
  have key : ∀ {a b : Id}, a ∈ h.kids p → b ∈ h.kids p → a ≠ b → Below h a b → False := by
    intro a b ha hb hab hbe
    cases hbe with
    | refl => exact hab rfl
    | @step q _ hq hc =>
      have := uniq_parent W hc hb
      subst this
      exact F.irrefl ha hq
  rcases below_cases W h1 h2 with h3 | h3
  · exact key ha hb hab h3
  · exact key hb ha (Ne.symm hab) h3

theorem Rep.ids_nodup {h : Heap} (W : WF h) (F : Forest h) {T : Tree} (R : Rep h T) : T.ids.Nodup := by
  induction T using Tree.ind with
  | H i t v f l ks ih =>
    have hk : h.kids i = ks.map Tree.id := R.kids
    have hR : ∀ k ∈ ks, Rep h k := fun k hk => R.kid hk
    rw [Tree.ids_node, List.nodup_cons]
    constructor
    · intro hi
      obtain ⟨k, hk', hi⟩ := Tree.mem_idsL.1 hi
      have := (below_iff_ids (hR k hk') i).2 hi
      exact F.irrefl (x := i) (c := k.id) (by rw [hk]; exact List.mem_map_of_mem hk') this
    · have hnd : (ks.map Tree.id).Nodup := hk ▸ W.kids_nodup i
      have hin : ∀ k ∈ ks, k.id ∈ h.kids i := fun k hk' => by rw [hk]; exact List.mem_map_of_mem hk'
      clear hk R
      induction ks with
      | nil => simp [Tree.idsL_nil]
      | cons k r ihr =>
        rw [Tree.idsL_cons, List.nodup_append]
        simp only [List.map_cons, List.nodup_cons] at hnd
        refine ⟨ih k (by simp) (hR k (by simp)), ihr (fun k' h' => ih k' (by simp [h'])) (fun k' h' => hR k' (by simp [h'])) hnd.2
          (fun k' h' => hin k' (by simp [h'])), ?_⟩
        rintro y hy z hz rfl
        obtain ⟨k', hk', hz⟩ := Tree.mem_idsL.1 hz
        refine sibling_disjoint W F (hin k (by simp)) (hin k' (by simp [hk'])) ?_ ((below_iff_ids (hR k (by simp)) y).2 hy)
          ((below_iff_ids (hR k' (by simp [hk'])) y).2 hz)
        rintro e
        exact hnd.1 (e ▸ List.mem_map_of_mem hk')

/-- the items strictly below the root of a tree -/
theorem mem_idsL_kids {h : Heap} (W : WF h) (F : Forest h) {T : Tree} (R : Rep h T) (y : Id) :
    y ∈ Tree.idsL T.kids ↔ Below h T.id y ∧ y ≠ T.id := by
  have hn := R.ids_nodup W F
  rw [below_iff_ids R]
  cases T with
  | node i t v f l ks =>
    rw [Tree.ids_node, List.nodup_cons] at *
    simp only [Tree.kids, Tree.id, List.mem_cons]
    constructor
    · intro hy; exact ⟨.inr hy, fun e => hn.1 (e ▸ hy)⟩
    · rintro ⟨rfl | hy, hne⟩
      · exact (hne rfl).elim
      · exact hy

/-- hierarchical membership: a chain of matching items -/
theorem mem_preF {h : Heap} {f : Id → Bool} {T : Tree} (R : Rep h T) (y : Id) :
    y ∈ T.preF f ↔ ∃ l : List Id, l.head? = some T.id ∧ l.getLast? = some y ∧ (∀ z ∈ l, f z = true) ∧ l.IsChain fun a b => b ∈ h.kids a := by
  induction T using Tree.ind generalizing y with
  | H i t v g l ks ih =>
    have hk : h.kids i = ks.map Tree.id := R.kids
    have hL : y ∈ Tree.preFL f ks ↔ ∃ k ∈ ks, y ∈ k.preF f := by
      clear ih hk R
      induction ks with
      | nil => simp [Tree.preFL]
      | cons k r ihr => simp [Tree.preFL, ihr]
    simp only [Tree.preF, Tree.id]
    by_cases hf : f i = true
    · rw [if_pos hf, List.mem_cons, hL]
      constructor
      · rintro (rfl | ⟨k, hk', hy⟩)
        · exact ⟨[y], by simp, by simp, by simpa using hf, by simp⟩
        · obtain ⟨l, h1, h2, h3, h4⟩ := (ih k hk' (R.kid hk') y).1 hy
          cases l with
          | nil => simp at h1
          | cons a l =>
            obtain rfl : a = k.id := by simpa using h1
            refine ⟨i :: k.id :: l, by simp, ?_, ?_, ?_⟩
            · rw [List.getLast?_cons_cons]; exact h2
            · intro z hz; rcases List.mem_cons.1 hz with rfl | hz
              · exact hf
              · exact h3 z hz
            · exact List.isChain_cons_cons.2 ⟨by rw [hk]; exact List.mem_map_of_mem hk', h4⟩
      · rintro ⟨l, h1, h2, h3, h4⟩
        cases l with
        | nil => simp at h1
        | cons a l =>
          obtain rfl : a = i := by simpa using h1
          cases l with
          | nil => left; simpa using h2.symm
          | cons b l =>
            right
            rw [List.isChain_cons_cons] at h4
            obtain ⟨hb, h4⟩ := h4
            rw [hk, List.mem_map] at hb
            obtain ⟨k, hk', rfl⟩ := hb
            exact ⟨k, hk', (ih k hk' (R.kid hk') y).2 ⟨k.id :: l, by simp, by rwa [List.getLast?_cons_cons] at h2,
              fun z hz => h3 z (List.mem_cons_of_mem _ hz), h4⟩⟩
    · rw [if_neg hf]
      simp only [List.not_mem_nil, false_iff]
      rintro ⟨l, h1, _, h3, _⟩
      cases l with
      | nil => simp at h1
      | cons a l => obtain rfl : a = i := by simpa using h1
                    exact hf (h3 a (by simp))

theorem preF_sublist (f : Id → Bool) (T : Tree) : (T.preF f).Sublist (T.preF fun _ => true) := by
  induction T using Tree.ind with
  | H i t v g l ks ih =>
    have : (Tree.preFL f ks).Sublist (Tree.preFL (fun _ => true) ks) := by
      induction ks with
      | nil => exact .refl _
      | cons k r ihr => exact (ih k (by simp)).append (ihr fun k' h' => ih k' (by simp [h']))
    simp only [Tree.preF, if_true]
    split
    · exact this.cons₂ i
    · exact List.nil_sublist _
theorem preFL_sublist (f : Id → Bool) (ks : List Tree) : (Tree.preFL f ks).Sublist (Tree.preFL (fun _ => true) ks) := by
  induction ks with
  | nil => exact .refl _
  | cons k r ihr => exact (preF_sublist f k).append ihr
theorem postFL_eq (f : Id → Bool) (ks : List Tree) : Tree.postFL f ks = (Tree.preFL f (Tree.mirrorL ks)).reverse := by
  induction ks with
  | nil => rfl
  | cons k r ihr => rw [Tree.postFL, Tree.mirrorL, preFL_append, List.reverse_append, ihr, post_eq]; simp [Tree.preFL]
theorem postFL_sublist (f : Id → Bool) (ks : List Tree) : (Tree.postFL f ks).Sublist (Tree.postFL (fun _ => true) ks) := by
  rw [postFL_eq, postFL_eq]; exact (preFL_sublist f _).reverse

theorem preFL_perm_mirrorL (f : Id → Bool) (ks : List Tree) : (Tree.preFL f (Tree.mirrorL ks)).Perm (Tree.preFL f ks) := by
  induction ks with
  | nil => exact .refl _
  | cons k r ihr =>
    rw [Tree.mirrorL, preFL_append]
    simp only [Tree.preFL, List.append_nil]
    exact (ihr.append (pre_perm_mirror f k)).trans List.perm_append_comm
theorem postFL_perm (f : Id → Bool) (ks : List Tree) : (Tree.postFL f ks).Perm (Tree.preFL f ks) := by
  rw [postFL_eq]; exact (List.reverse_perm _).trans (preFL_perm_mirrorL f ks)

/-- what the helpers of `deep.iter` yield below the item -/
def bodyOrder (f : Id → Bool) (o : IterOpts) (T : Tree) : List Id :=
  if o.up then Tree.postFL f (T.view o.reverse).kids else Tree.preFL f (T.view o.reverse).kids

/-- … with the item itself -/
def fullOrder (f : Id → Bool) (o : IterOpts) (T : Tree) : List Id :=
  if o.self then (if f T.id then (if o.up || o.reverse then bodyOrder f o T ++ [T.id] else T.id :: bodyOrder f o T) else []) else bodyOrder f o T

theorem iterHelper_delivers {h : Heap} {T : Tree} (R : Rep h T) (f : Id → Bool) (o : IterOpts) :
    Delivers (fun n => iterHelper n h T.id f o) (fullOrder f o T) := by
  have hv := R.view o.reverse
  have hid := view_id o.reverse T
  have h1 := pre_delivers f hv
  have h2 := post_delivers f hv
  rw [hid] at h1 h2
  unfold fullOrder iterHelper
  cases hs : o.self with
  | false =>
    simp only [Bool.false_and, Bool.false_eq_true, if_false]
    cases hu : o.up with
    | true => simpa [bodyOrder, hu] using h2.map (fun r => r.1)
    | false =>
      simp only [Bool.false_eq_true, if_false, bodyOrder, hu]
      simpa using h1.map (fun r => r.1)
  | true =>
    by_cases hf : f T.id = true
    · simp only [hf, Bool.not_true, Bool.and_false, Bool.false_eq_true, if_false, if_true]
      cases hu : o.up with
      | true => simpa [bodyOrder, hu] using h2.map (fun r => r.1 ++ [T.id])
      | false =>
        have := h1.map (fun r => if o.reverse then r.1 ++ [T.id] else [T.id] ++ r.1)
        cases hr : o.reverse <;> simp [bodyOrder, hu, hr] at this ⊢ <;> exact this
    · simp only [hf, Bool.true_and, if_true, if_false, Bool.false_eq_true, Bool.not_false]
      exact Delivers.const _

/-! ### levels -/

theorem atLevelL_eq (n : Nat) (ks : List Tree) : Tree.atLevelL n ks = ks.flatMap (Tree.atLevel n) := by
  induction ks with
  | nil => simp [Tree.atLevelL]
  | cons k r ih => simp [Tree.atLevelL, ih]

/-- level machine: one tree, `d` levels above the wanted one -/
theorem sib_goes {ch : Id → List Id} {lv : Nat} {skip : Id → Bool} (T : Tree) : Lists ch T → ∀ (d : Nat) xs (st : List (List Id)),
    st.length + 1 + d = lv → Goes (sibStep ch lv skip) ((T.id :: xs) :: st) ((T.atLevel d).filter fun y => !skip y) (xs :: st) := by
  induction T using Tree.ind with
  | H i t v g l ks ih =>
    intro H d xs st hd
    have hch : ch i = ks.map Tree.id := H.root
    have hL : ∀ (d : Nat) (ks' : List Tree), (∀ k ∈ ks', k ∈ ks) → ∀ st : List (List Id), st.length + 1 + d = lv →
        Goes (sibStep ch lv skip) (ks'.map Tree.id :: st) ((Tree.atLevelL d ks').filter fun y => !skip y) ([] :: st) := by
      intro d ks'
      induction ks' with
      | nil => intro _ st _; simp only [Tree.atLevelL]; exact Goes.refl _
      | cons k r ihr =>
        intro hk st hd
        simp only [List.map_cons, Tree.atLevelL, List.filter_append]
        exact (ih k (hk k (by simp)) (H.kid (hk k (by simp))) _ _ _ hd).trans (ihr (fun k' h' => hk k' (by simp [h'])) st hd)
    simp only [Tree.id]
    cases d with
    | zero =>
      have : ((i :: xs) :: st).length = lv := by simp; omega
      refine Goes.one ?_
      simp only [sibStep, this, if_true, Tree.atLevel, List.filter_cons, List.filter_nil]
      cases skip i <;> rfl
    | succ d =>
      have hne : ¬ ((i :: xs) :: st).length = lv := by simp; omega
      simp only [Tree.atLevel]
      by_cases hc : ch i = []
      · have : ks = [] := by rw [hch] at hc; simpa using hc
        subst this
        refine Goes.one ?_
        simp only [sibStep, hne, if_false, hc, if_true, Tree.atLevelL, List.filter_nil]
      · refine Goes.cons (o := []) (t := ch i :: xs :: st) (by simp only [sibStep, hne, if_false, hc]) ?_
        rw [hch]
        have := (hL d ks (fun _ h => h) (xs :: st) (by simp; omega)).trans (Goes.one (step := sibStep ch lv skip) (s := [] :: xs :: st) (o := []) (t := xs :: st) rfl)
        simpa using this

theorem sib_delivers {ch : Id → List Id} {skip : Id → Bool} {T : Tree} (H : Lists ch T) (d : Nat) :
    Delivers (fun n => gen (sibStep ch (d + 1) skip) n [ch T.id]) ((T.atLevel (d + 1)).filter fun y => !skip y, .ok []) := by
  cases T with
  | node i t v g l ks =>
    have hch : ch i = ks.map Tree.id := H.root
    simp only [Tree.id, hch, Tree.atLevel]
    have : ∀ ks' : List Tree, (∀ k ∈ ks', Lists ch k) → Goes (sibStep ch (d + 1) skip) [ks'.map Tree.id] ((Tree.atLevelL d ks').filter fun y => !skip y) [] := by
      intro ks'
      induction ks' with
      | nil => intro _; simp only [Tree.atLevelL, List.filter_nil]; exact Goes.one rfl
      | cons k r ihr =>
        intro hk
        simp only [List.map_cons, Tree.atLevelL, List.filter_append]
        exact (sib_goes k (hk k (by simp)) d _ [] (by simp; omega)).trans (ihr fun k' h' => hk k' (by simp [h']))
    exact (this ks fun k hk => H.kid hk).finish rfl

theorem atLevel_mirror (n : Nat) (T : Tree) : T.mirror.atLevel n = (T.atLevel n).reverse := by
  induction T using Tree.ind generalizing n with
  | H i t v g l ks ih =>
    cases n with
    | zero => simp [Tree.mirror, Tree.atLevel]
    | succ n =>
      simp only [Tree.mirror, Tree.atLevel]
      induction ks with
      | nil => simp [Tree.mirrorL, Tree.atLevelL]
      | cons k r ihr =>
        have := ihr fun k' h' => ih k' (by simp [h'])
        rw [atLevelL_eq] at this ⊢
        simp only [Tree.mirrorL, List.flatMap_append, Tree.atLevelL, List.reverse_append, this]
        simp [ih k (by simp)]

theorem mem_atLevel {h : Heap} {T : Tree} (R : Rep h T) (n : Nat) (y : Id) :
    y ∈ T.atLevel n ↔ ∃ l : List Id, l.length = n + 1 ∧ l.head? = some T.id ∧ l.getLast? = some y ∧ l.IsChain fun a b => b ∈ h.kids a := by
  induction T using Tree.ind generalizing n y with
  | H i t v g l ks ih =>
    have hk : h.kids i = ks.map Tree.id := R.kids
    simp only [Tree.id]
    cases n with
    | zero =>
      simp only [Tree.atLevel, List.mem_singleton]
      constructor
      · rintro rfl; exact ⟨[y], by simp⟩
      · rintro ⟨l, h1, h2, h3, _⟩
        match l, h1 with
        | [a], _ => simp at h2 h3; omega
    | succ n =>
      simp only [Tree.atLevel, atLevelL_eq, List.mem_flatMap]
      constructor
      · rintro ⟨k, hk', hy⟩
        obtain ⟨l, h1, h2, h3, h4⟩ := (ih k hk' (R.kid hk') n y).1 hy
        cases l with
        | nil => simp at h1
        | cons a l =>
          obtain rfl : a = k.id := by simpa using h2
          exact ⟨i :: k.id :: l, by simpa using h1, by simp, by rw [List.getLast?_cons_cons]; exact h3,
            List.isChain_cons_cons.2 ⟨by rw [hk]; exact List.mem_map_of_mem hk', h4⟩⟩
      · rintro ⟨l, h1, h2, h3, h4⟩
        match l, h1 with
        | a :: b :: l, h1 =>
          obtain rfl : a = i := by simpa using h2
          rw [List.isChain_cons_cons] at h4
          obtain ⟨hb, h4⟩ := h4
          rw [hk, List.mem_map] at hb
          obtain ⟨k, hk', rfl⟩ := hb
          exact ⟨k, hk', (ih k hk' (R.kid hk') n y).2 ⟨k.id :: l, by simpa using h1, by simp, by rwa [List.getLast?_cons_cons] at h3, h4⟩⟩

theorem atLevel_nil_iff (T : Tree) (n : Nat) : T.atLevel n = [] ↔ T.height < n := by
  induction T using Tree.ind generalizing n with
  | H i t v g l ks ih =>
    cases n with
    | zero => simp [Tree.atLevel]
    | succ n =>
      simp only [Tree.atLevel, Tree.height]
      induction ks with
      | nil => simp [Tree.atLevelL, Tree.heightL]
      | cons k r ihr =>
        have h1 := ihr fun k' h' => ih k' (by simp [h'])
        have h2 := ih k (by simp) n
        simp only [Tree.atLevelL, Tree.heightL, List.append_eq_nil_iff, h1, h2]
        omega

theorem maxDepth_loop {h : Heap} {T : Tree} (R : Rep h T) : ∀ (m d : Nat), T.height < d + m → d ≤ T.height + 1 → ∀ n, m + 1 ≤ n →
    maxDepthAux n h (T.atLevel d) d = some T.height := by
  have hnext : ∀ (T : Tree), Rep h T → ∀ d, (T.atLevel d).flatMap h.kids = T.atLevel (d + 1) := by
    intro T
    induction T using Tree.ind with
    | H i t v g l ks ih =>
      intro R d
      have hk : h.kids i = ks.map Tree.id := R.kids
      cases d with
      | zero =>
        simp only [Tree.atLevel, List.flatMap_cons, List.flatMap_nil, List.append_nil, hk, atLevelL_eq]
        clear ih hk R
        induction ks with
        | nil => rfl
        | cons k r ihr => simp only [List.map_cons, List.flatMap_cons, ihr]; cases k; rfl
      | succ d =>
        simp only [Tree.atLevel, atLevelL_eq, List.flatMap_assoc]
        have hR : ∀ k ∈ ks, Rep h k := fun k hk => R.kid hk
        clear hk R
        induction ks with
        | nil => rfl
        | cons k r ihr =>
          simp only [List.flatMap_cons]
          rw [ih k (by simp) (hR k (by simp)) d, ihr (fun k' h' => ih k' (by simp [h'])) fun k' h' => hR k' (by simp [h'])]
  intro m
  induction m with
  | zero =>
    intro d h1 h2 n hn
    obtain ⟨n, rfl⟩ : ∃ n', n = n' + 1 := ⟨n - 1, by omega⟩
    have : T.atLevel d = [] := (atLevel_nil_iff T d).2 (by omega)
    rw [maxDepthAux, this, if_pos rfl]
    congr 1; omega
  | succ m ih =>
    intro d h1 h2 n hn
    obtain ⟨n, rfl⟩ : ∃ n', n = n' + 1 := ⟨n - 1, by omega⟩
    by_cases hd : T.atLevel d = []
    · have := (atLevel_nil_iff T d).1 hd
      rw [maxDepthAux, hd, if_pos rfl]
      congr 1; omega
    · have : ¬ T.height < d := fun h' => hd ((atLevel_nil_iff T d).2 h')
      rw [maxDepthAux, if_neg hd, hnext T R]
      exact ih (d + 1) (by omega) (by omega) n (by omega)

end ITree
