import Verif.Proofs.Extend2
/-
sort, clear, rotate and changes of values and flags.
-/
namespace ITree

/-! ### changing one node -/

/-- `p` loses all its children (they keep their parent reference) -/
theorem hollow_wf {h : Heap} (W : WF h) (p : Id) (f : Node → Node) (h1 : ∀ n, (f n).items = []) (h2 : ∀ n, (f n).fams = some [])
    (h3 : ∀ n, (f n).parent = n.parent) (h4 : ∀ n, (f n).tag = n.tag) : WF (h.modify p f) := by
  have hk : ∀ i, (h.modify p f).kids i = if i = p then [] else h.kids i := by
    intro i; simp only [Heap.kids, node_modify]; split; exact h1 _; rfl
  have hpar : ∀ i, ((h.modify p f).node i).parent = (h.node i).parent := by
    intro i; simp only [node_modify]; split; exact h3 _; rfl
  refine W.update p (Nat.le_refl _) ?_ (fun i e => by rw [hk, if_neg e]) (fun i e _ => by simp [e]) ?_ (fun i e _ => by simp [e])
    (fun i _ c _ => ?_) (fun i _ c _ => by rw [hpar]; exact PEq.refl _) ?_
  · intro y hy
    obtain ⟨a, b⟩ := W.fresh y hy
    rw [hk, hpar]
    exact ⟨by split; rfl; exact a, b⟩
  · intro i F e a b; simp only [node_modify, if_neg e] at b; exact W.fams_nil i F a b
  · simp only [Heap.tag, node_modify]; split; exact h4 _; rfl
  · have hkp : (h.modify p f).kids p = [] := by rw [hk, if_pos rfl]
    constructor
    · intro c hc; rw [hkp] at hc; simp at hc
    · rw [hkp]; simp
    · intro c hc; rw [hkp] at hc; simp at hc
    · intro hc; exact (hc hkp).elim
    · intro hc; exact (hc hkp).elim
    · intro F _ hF; simp only [node_modify, if_true, h2] at hF; simpa using hF.symm

/-- a change of value, flags or link only -/
structure DataOnly (f : Node → Node) : Prop where
  items : ∀ n, (f n).items = n.items
  fams : ∀ n, (f n).fams = n.fams
  stale : ∀ n, (f n).stale = n.stale
  parent : ∀ n, (f n).parent = n.parent
  tag : ∀ n, (f n).tag = n.tag

/-- heaps that agree in structure (children, parents, families, tags) -/
structure StructEq (h h' : Heap) : Prop where
  next : h'.next = h.next
  tag : ∀ i, h'.tag i = h.tag i
  kids : ∀ i, h'.kids i = h.kids i
  parent : ∀ i, (h'.node i).parent = (h.node i).parent
  fams : ∀ i, (h'.node i).fams = (h.node i).fams
  stale : ∀ i, (h'.node i).stale = (h.node i).stale

theorem StructEq.refl (h : Heap) : StructEq h h := ⟨rfl, fun _ => rfl, fun _ => rfl, fun _ => rfl, fun _ => rfl, fun _ => rfl⟩
theorem StructEq.trans {a b c : Heap} (A : StructEq a b) (B : StructEq b c) : StructEq a c :=
  ⟨B.next.trans A.next, fun i => (B.tag i).trans (A.tag i), fun i => (B.kids i).trans (A.kids i), fun i => (B.parent i).trans (A.parent i),
    fun i => (B.fams i).trans (A.fams i), fun i => (B.stale i).trans (A.stale i)⟩

theorem DataOnly.structEq {f : Node → Node} (D : DataOnly f) (h : Heap) (p : Id) : StructEq h (h.modify p f) where
  next := rfl
  tag i := by simp only [Heap.tag, node_modify]; split; exact D.tag _; rfl
  kids i := by simp only [Heap.kids, node_modify]; split; exact D.items _; rfl
  parent i := by simp only [node_modify]; split; exact D.parent _; rfl
  fams i := by simp only [node_modify]; split; exact D.fams _; rfl
  stale i := by simp only [node_modify]; split; exact D.stale _; rfl

theorem StructEq.wf {h h' : Heap} (S : StructEq h h') (W : WF h) : WF h' where
  fresh x hx := by rw [S.kids, S.parent]; exact W.fresh x (S.next ▸ hx)
  kids_lt p c hc := by rw [S.next]; rw [S.kids] at hc; exact W.kids_lt p c hc
  kids_nodup p := by rw [S.kids]; exact W.kids_nodup p
  kid_parent p c hc := by rw [S.kids] at hc; rw [S.parent]; exact W.kid_parent p c hc
  stale_none p hp := by rw [S.kids] at hp; rw [S.stale]; exact W.stale_none p hp
  fams_ok p hp := by
    rw [S.kids] at hp
    obtain ⟨F, h1, h2⟩ := W.fams_ok p hp
    refine ⟨F, by rw [S.fams, h1], h2.keys, fun t => ?_⟩
    have : famView h' p t = famView h p t := by simp only [famView, S.kids, S.tag]
    rw [h2.get, this]
  fams_nil p F hp hF := by rw [S.kids] at hp; rw [S.fams] at hF; exact W.fams_nil p F hp hF

theorem StructEq.par {h h' : Heap} (S : StructEq h h') (i) : h'.par i = h.par i := by simp only [Heap.par, S.parent]
theorem StructEq.noZombie {h h' : Heap} (S : StructEq h h') (Z : NoZombie h) : NoZombie h' := fun c p hc => by
  rw [S.kids]; rw [S.par] at hc; exact Z c p hc
theorem StructEq.forest {h h' : Heap} (S : StructEq h h') (F : Forest h) : Forest h' := F.sub fun q c hc => by rwa [S.kids] at hc

/-! ### extending with free items -/

/-- distinct items without parent are attached themselves -/
theorem ExtendSpec.free {h h' : Heap} {p : Id} {l xs : List Id} (S : ExtendSpec h h' p (l.map Arg.item) xs) (hl : l.Nodup)
    (hp : ∀ i ∈ l, h.par i = none) : xs = l := by
  have hlen : xs.length = l.length := by rw [S.len]; simp
  apply List.ext_getElem hlen
  intro j h1 h2
  have a : (l.map Arg.item)[j]? = some (Arg.item l[j]) := by simp [h2]
  have b : xs[j]? = some xs[j] := List.getElem?_eq_getElem h1
  refine (S.each j _ _ a b).1 ⟨hp _ (List.getElem_mem h2), fun hm => ?_⟩
  rw [← List.map_take, List.mem_map] at hm
  obtain ⟨c, hc, e⟩ := hm
  cases e
  have := idxOf_lt_of_mem_take hc
  rw [hl.idxOf_getElem j h2] at this
  omega

/-- the same for `extendleft` -/
theorem ExtendLeftSpec.free {h h' : Heap} {p : Id} {l xs : List Id} (S : ExtendLeftSpec h h' p (l.map Arg.item) xs) (hl : l.Nodup)
    (hp : ∀ i ∈ l, h.par i = none) : xs = l := by
  have hlen : xs.length = l.length := by rw [S.len]; simp
  apply List.ext_getElem hlen
  intro j h1 h2
  have a : (l.map Arg.item)[j]? = some (Arg.item l[j]) := by simp [h2]
  have b : xs[j]? = some xs[j] := List.getElem?_eq_getElem h1
  refine (S.each j _ _ a b).1 ⟨?_, fun hm => ?_⟩
  · rw [emptied_par]; split; rfl; exact hp _ (List.getElem_mem h2)
  rw [← List.map_take, List.mem_map] at hm
  obtain ⟨c, hc, e⟩ := hm
  cases e
  have := idxOf_lt_of_mem_take hc
  rw [hl.idxOf_getElem j h2] at this
  omega

/-! ### rotate -/

/-- several items were taken out of `p` -/
structure PopSpec (h h' : Heap) (p : Id) (L xs : List Id) : Prop where
  wf : WF h'
  next : h'.next = h.next
  tag : ∀ i, h'.tag i = h.tag i
  value : ∀ i, (h'.node i).value = (h.node i).value
  flags : ∀ i, h'.flags i = h.flags i
  link : ∀ i, (h'.node i).link = (h.node i).link
  kids_p : h'.kids p = L
  kids_o : ∀ i, i ≠ p → h'.kids i = h.kids i
  par : ∀ i, h'.par i = if i ∈ xs then none else h.par i

theorem PopSpec.refl {h : Heap} (W : WF h) (p : Id) : PopSpec h h p (h.kids p) [] :=
  ⟨W, rfl, fun _ => rfl, fun _ => rfl, fun _ => rfl, fun _ => rfl, rfl, fun _ _ => rfl, fun i => by simp⟩

theorem PopSpec.ofDetach {h h1 h' : Heap} {p x : Id} {n L xs} (D : DetachRel h h1 p x n) (S : PopSpec h1 h' p L xs) :
    PopSpec h h' p L (x :: xs) where
  wf := S.wf
  next := S.next.trans D.next
  tag i := (S.tag i).trans (D.tag i)
  value i := (S.value i).trans (D.value i)
  flags i := (S.flags i).trans (D.flags i)
  link i := (S.link i).trans (D.link i)
  kids_p := S.kids_p
  kids_o i e := (S.kids_o i e).trans (D.kids_o i e)
  par i := by
    rw [S.par, D.par']
    simp only [List.mem_cons]
    by_cases h1 : i = x <;> by_cases h2 : i ∈ xs <;> simp [h1, h2]

theorem popMany_last {p : Id} : ∀ (n : Nat) (h h' : Heap) (xs : List Id), WF h → NoCover h → popMany h p (-1) n = (h', .ok xs) →
    n ≤ (h.kids p).length ∧ xs = ((h.kids p).drop ((h.kids p).length - n)).reverse ∧ PopSpec h h' p ((h.kids p).take ((h.kids p).length - n)) xs := by
  intro n
  induction n with
  | zero =>
    intro h h' xs W N hr
    simp [popMany] at hr
    obtain ⟨rfl, rfl⟩ := hr
    refine ⟨by omega, by simp, ?_⟩
    simp only [Nat.sub_zero, List.take_length]; exact PopSpec.refl W p
  | succ n ih =>
    intro h h' xs W N hr
    simp only [popMany] at hr
    split at hr
    · simp at hr
    · next x hx =>
      split at hr
      · simp at hr
      · next ys hys =>
        simp only [Prod.mk.injEq, Except.ok.injEq] at hr
        obtain ⟨rfl, rfl⟩ := hr
        obtain ⟨m, hm, D⟩ := delInt_ok (h' := (delInt h p (-1)).1) (x := x) W (fun c _ => N c) (by rw [← hx])
        have hpos : m = (h.kids p).length - 1 ∧ 0 < (h.kids p).length := by
          unfold pyPos at hm
          simp at hm
          omega
        obtain ⟨a, b, c⟩ := ih _ (popMany (delInt h p (-1)).1 p (-1) n).1 ys (D.wf W) (D.noCover N) (by rw [← hys])
        have hk := D.kids_p
        have hlen : ((h.kids p).eraseIdx m).length = (h.kids p).length - 1 := by
          rw [List.length_eraseIdx_of_lt (by omega)]
        have hdl : (h.kids p).eraseIdx m = (h.kids p).take ((h.kids p).length - 1) := by
          rw [List.eraseIdx_eq_take_drop_succ, hpos.1]
          rw [List.drop_eq_nil_of_le (by omega), List.append_nil]
        rw [hk] at a b c
        rw [hlen] at a b c
        rw [hdl] at b c
        have hxm := D.at_n
        refine ⟨by omega, ?_, ?_⟩
        · rw [b]
          have e1 : (h.kids p).length - (n + 1) = (h.kids p).length - 1 - n := by omega
          rw [e1]
          have : (h.kids p).drop ((h.kids p).length - 1 - n) = ((h.kids p).take ((h.kids p).length - 1)).drop ((h.kids p).length - 1 - n) ++ [x] := by
            have hsplit : h.kids p = (h.kids p).take ((h.kids p).length - 1) ++ [x] := by
              have := List.take_append_drop ((h.kids p).length - 1) (h.kids p)
              rw [List.drop_eq_getElem_cons (by omega), List.drop_eq_nil_of_le (by omega)] at this
              rw [hpos.1, List.getElem?_eq_getElem (by omega)] at hxm
              simp only [Option.some.injEq] at hxm
              rw [hxm] at this
              exact this.symm
            conv_lhs => rw [hsplit]
            rw [List.drop_append_of_le_length]
            · simp
            · simp
          rw [this]; simp
        · have e1 : (h.kids p).length - (n + 1) = (h.kids p).length - 1 - n := by omega
          rw [e1]
          rw [List.take_take] at c
          have e2 : min ((h.kids p).length - 1 - n) ((h.kids p).length - 1) = (h.kids p).length - 1 - n := by omega
          rw [e2] at c
          exact PopSpec.ofDetach D c

theorem popMany_first {p : Id} : ∀ (n : Nat) (h h' : Heap) (xs : List Id), WF h → NoCover h → popMany h p 0 n = (h', .ok xs) →
    n ≤ (h.kids p).length ∧ xs = (h.kids p).take n ∧ PopSpec h h' p ((h.kids p).drop n) xs := by
  intro n
  induction n with
  | zero =>
    intro h h' xs W N hr
    simp [popMany] at hr
    obtain ⟨rfl, rfl⟩ := hr
    exact ⟨by omega, by simp, by simpa using PopSpec.refl W p⟩
  | succ n ih =>
    intro h h' xs W N hr
    simp only [popMany] at hr
    split at hr
    · simp at hr
    · next x hx =>
      split at hr
      · simp at hr
      · next ys hys =>
        simp only [Prod.mk.injEq, Except.ok.injEq] at hr
        obtain ⟨rfl, rfl⟩ := hr
        obtain ⟨m, hm, D⟩ := delInt_ok (h' := (delInt h p 0).1) (x := x) W (fun c _ => N c) (by rw [← hx])
        have hpos : m = 0 ∧ 0 < (h.kids p).length := by
          unfold pyPos at hm
          simp at hm
          omega
        obtain ⟨a, b, c⟩ := ih _ (popMany (delInt h p 0).1 p 0 n).1 ys (D.wf W) (D.noCover N) (by rw [← hys])
        have hk := D.kids_p
        have hxm := D.at_n
        rw [hpos.1] at hk hxm
        cases hL : h.kids p with
        | nil => rw [hL] at hpos; simp at hpos
        | cons y L =>
          rw [hL] at hk hxm
          simp at hk hxm
          subst hxm
          rw [hk] at a b c
          refine ⟨by simp; omega, by simp [b], ?_⟩
          simpa using PopSpec.ofDetach D c

end ITree
