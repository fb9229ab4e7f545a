import Verif.Proofs.Circle
/-
Circular links: the search of the code, and `load_links` on any item.
-/
namespace ITree

section
variable {h : Heap} {S : Id → Prop} {g : Heap} {force : Bool}

theorem ancestor_succ {h : Heap} : ∀ (k : Nat) (x a : Id), ancestor h k x = some a → ancestor h (k + 1) x = h.par a := by
  intro k
  induction k with
  | zero => intro x a e; simp only [ancestor, Option.some.injEq] at e; subst e; cases hp : h.par x <;> simp [ancestor, hp]
  | succ k ih =>
    intro x a e
    cases hp : h.par x with
    | none => simp [ancestor, hp] at e
    | some y =>
      have e' : ancestor h k y = some a := by simpa [ancestor, hp] using e
      have := ih y a e'
      rw [ancestor, hp]; exact this

theorem Circular.owned (Z : Circular h force S) {p : Id} (sp : S p) {k : Nat} {a : Id} (ha : ancestor h k p = some a) (hlt : a < h.next) : Own h a := by
  refine ⟨hlt, (Z.own p sp k a ha).1, fun q hq => ?_⟩
  refine (Z.own p sp (k + 1) q ?_).2 (by omega)
  rw [ancestor_succ k p a ha]; exact hq

theorem Circular.mem (Z : Circular h force S) : ∀ i, S i → Own h i ∧ h.isLinkRoot i = true := fun i si => ⟨Z.owned si (k := 0) rfl (Z.root i si).1, (Z.root i si).2⟩

theorem LoadKeeps.ancestor (Z : Circular h force S) (W : WF h) (N : NoZombie h) (K : LoadKeeps force h S g) {p : Id} (sp : S p) : ∀ (k j : Nat) (x a : Id), ITree.ancestor h j p = some x → x < h.next →
    ITree.ancestor h k x = some a → ITree.ancestor g k x = some a := by
  intro k
  induction k with
  | zero => intro j x a _ _ e; exact e
  | succ k ih =>
    intro j x a hj hx e
    have hpar := K.par x (Z.owned sp hj hx)
    cases hp : h.par x with
    | none => simp [ITree.ancestor, hp] at e
    | some y =>
      have e' : ITree.ancestor h k y = some a := by simpa [ITree.ancestor, hp] using e
      have hy : y < h.next := kids_lt_next W (N x y hp)
      have hj' : ITree.ancestor h (j + 1) p = some y := by
        rw [ancestor_succ j p x hj]; exact hp
      have := ih (j + 1) y a hj' hy e'
      rw [ITree.ancestor, hpar, hp]; exact this

theorem LoadKeeps.root (Z : Circular h force S) (C : Core h) (N : NoZombie h) (K : LoadKeeps force h S g) {p : Id} (sp : S p) : g.root p = h.root p ∧ h.root p < h.next := by
  obtain ⟨k, r, e1, e2, e3⟩ := climb C N p
  have hp := (Z.root p sp).1
  have hr : r < h.next := by
    by_contra hn
    cases k with
    | zero => simp only [ITree.ancestor, Option.some.injEq] at e1; omega
    | succ k =>
      have : ∀ (k : Nat) (x a : Id), x < h.next → ITree.ancestor h k x = some a → a < h.next := by
        intro k
        induction k with
        | zero => intro x a hx e; simp only [ITree.ancestor, Option.some.injEq] at e; omega
        | succ k ih =>
          intro x a hx e
          cases hp : h.par x with
          | none => simp [ITree.ancestor, hp] at e
          | some y => exact ih y a (kids_lt_next C.wf (N x y hp)) (by simpa [ITree.ancestor, hp] using e)
      exact hn (this _ p r hp e1)
  have e4 := K.ancestor Z C.wf N sp k 0 p r rfl hp e1
  have e5 := K.par r (Z.owned sp e1 hr)
  have a1 : h.root p = r := rootAux_eq k h.next p r e1 e2 e3
  have a2 : g.root p = r := rootAux_eq k g.next p r e4 (by rw [e5, e2]) (Nat.le_trans e3 K.next)
  exact ⟨by rw [a1, a2], by rw [a1]; exact hr⟩

theorem childRen_same {h g : Heap} {r : Id} (hk : g.kids r = h.kids r) (hb : g.boundFams r = h.boundFams r) (t : Tag) : childRen g r (Target.ofTag t) = childRen h r (Target.ofTag t) := by
  have : ∀ tg : Target, (∀ l, tg ≠ .list l) → childRen g r tg = childRen h r tg := by
    intro tg hl
    cases tg <;> first | exact absurd rfl (hl _) | (unfold childRen; rw [hk, hb])
  refine this _ fun l => ?_
  match t with
  | .int i => simp [Target.ofTag]
  | .pair g (.int i) => simp [Target.ofTag]
  | .pair g (.str s) => simp [Target.ofTag]
  | .pair g (.pair a b) => simp [Target.ofTag]
  | .pair g .noTag => simp [Target.ofTag]
  | .pair g (.other n) => simp [Target.ofTag]
  | .noTag => simp [Target.ofTag]
  | .str s => simp [Target.ofTag]
  | .other n => simp [Target.ofTag]

theorem LoadKeeps.via (W : WF h) (K : LoadKeeps force h S g) {r s : Id} {ts : List Tag} (V : LeadsVia h r ts s) : levelLoop g (ts.map Target.ofTag) (true, .one r) = .ok (true, .one s) := by
  induction V with
  | here r => rfl
  | @step r x s t ts hlt hr st _ ih =>
    simp only [List.map_cons, levelLoop, levelStep]
    have e : childRen g r (Target.ofTag t) = .ok (true, .one x) := by
      rw [childRen_same (K.node r hlt hr).1 (K.node r hlt hr).2]
      rcases childRen_tag W r t with ⟨y, e, sy⟩ | ⟨hn, -⟩
      · rw [e, LeadsTo.unique sy st]
      · exact absurd st (hn x)
    rw [e]
    exact ih

theorem LoadKeeps.viaPath (W : WF h) (K : LoadKeeps force h S g) {r s : Id} {t : Tag} {ts : List Tag} (V : LeadsVia h r (t :: ts) s) :
    onlyItem (getPath g r (Target.ofTag t) (ts.map Target.ofTag)) = .ok s := by
  have key := K.via W V
  simp only [List.map_cons, levelLoop, levelStep] at key
  unfold getPath
  cases hc : childRen g r (Target.ofTag t) with
  | error e => rw [hc] at key; cases key
  | ok q =>
    rw [hc] at key
    simp only at key ⊢
    cases ts with
    | nil =>
      simp only [List.map_nil, levelLoop, Except.ok.injEq] at key
      subst key
      rfl
    | cons u us =>
      rw [if_neg (by simp), key]
      rfl

theorem LoadKeeps.setLink (K : LoadKeeps force h S g) {q : Id} {f : LinkSt → LinkSt} (hq : ¬ S q) : LoadKeeps force h S (g.setLink q f) :=
  K.modify (fun _ => ⟨rfl, rfl⟩) (fun _ _ => ⟨rfl, rfl, rfl⟩) (fun _ => rfl) (fun si => absurd si hq) fun hq y hy => K.kids _ hq y hy

theorem LoadKeeps.targetIn_out (K : LoadKeeps force h S g) {q : Id} (hq : ¬ S q) (path : List Tag) (r : Id) : LoadKeeps force h S (targetIn g q path r).1 := by
  unfold targetIn
  split
  · exact K
  · split
    · dsimp only
      split <;> exact K.setLink hq
    · exact K

/-- the path stored in a link of the circle loses the tag of the root, at most -/
theorem LoadKeeps.setPath (K : LoadKeeps force h S g) {p : Id} (sp : S p) {lk : LinkSt} (hl : (h.node p).link = some lk) :
    LoadKeeps force h S (g.setLink p fun l => { l with path := dropRoot (h.tag (h.root p)) lk.path }) := by
  have hk : ∀ i, (g.setLink p fun l => { l with path := dropRoot (h.tag (h.root p)) lk.path }).kids i = g.kids i := by
    intro i; simp only [Heap.setLink, Heap.kids, Heap.modify]; split <;> rfl
  refine ⟨K.next, fun i hi => ?_, fun i hi => ?_, fun i hi hr => ?_, fun i o => ?_, fun i si lk' e => ?_, fun q hq x hx => ?_⟩
  · rw [← K.flags i hi]; simp only [Heap.setLink, Heap.flags, Heap.modify]; split <;> rfl
  · rw [← K.tag i hi]; simp only [Heap.setLink, Heap.tag, Heap.modify]; split <;> rfl
  · rw [← (K.node i hi hr).1, ← (K.node i hi hr).2]
    refine ⟨hk i, ?_⟩
    simp only [Heap.setLink, Heap.boundFams, Heap.modify]; split <;> rfl
  · rw [← K.par i o]; simp only [Heap.setLink, Heap.par, Heap.modify]; split <;> rfl
  · simp only [Heap.setLink, Heap.modify]
    split
    · next e' =>
      subst e'
      rw [hl] at e; cases e
      obtain ⟨l1, a1, a2, a3, a4⟩ := K.link i si lk hl
      exact ⟨{ l1 with path := dropRoot (h.tag (h.root i)) lk.path }, by rw [a1]; rfl, a2, Or.inr rfl, a4⟩
    · exact K.link i si lk' e
  · rw [hk] at hx; exact K.kids q hq x hx

/-- the search from a link root of the circle -/
theorem LoadKeeps.search (Z : Circular h force S) (C : Core h) (N : NoZombie h) (fe : FileEnv) (K : LoadKeeps force h S g) {p : Id} (sp : S p) :
    LoadKeeps force h S (getTarget fe g p).1 ∧ ∃ s, (getTarget fe g p).2 = .ok s ∧ s < h.next ∧ h.isLinkRoot s = false ∧ ∃ c ∈ h.kids s, S c := by
  obtain ⟨lk, hl, ho, -, hd, s, c, V, s1, s2, s3, s4⟩ := Z.next p sp
  obtain ⟨er, hr⟩ := K.root Z C N sp
  have et := K.tag _ hr
  suffices ∀ lk', (g.node p).link = some lk' → lk'.OwnTree → dropRoot (h.tag (h.root p)) lk'.path = dropRoot (h.tag (h.root p)) lk.path →
      LoadKeeps force h S (getTarget fe g p).1 ∧ (getTarget fe g p).2 = .ok s by
    obtain ⟨l1, h1, h2, h3, -⟩ := K.link p sp lk hl
    obtain ⟨a, b⟩ := this _ h1 (by unfold LinkSt.OwnTree; rw [h2]; exact ho) (by
      rcases h3 with h3 | h3
      · rw [h3]
      · rw [h3]; exact hd)
    exact ⟨a, s, b, s1, s2, c, s3, s4⟩
  intro lk' hl' ho' hp'
  rw [theFile_none hl' ho'.the, er]
  rw [← hp'] at V
  have K' := K.setPath sp hl
  rw [← hp'] at K'
  revert V K'
  cases lk'.path with
  | nil => intro V _; cases V; exact ⟨K, rfl⟩
  | cons t ts =>
    intro V K'
    unfold targetIn
    rw [et]
    simp only [dropRoot] at V K' ⊢
    by_cases ht : t = h.tag (h.root p)
    · rw [if_pos ht] at V K' ⊢
      cases ts with
      | nil => cases V; exact ⟨K', rfl⟩
      | cons u us => exact ⟨K', K'.viaPath C.wf V⟩
    · rw [if_neg ht] at V ⊢
      exact ⟨K, K.viaPath C.wf V⟩

theorem LoadKeeps.find (Z : Circular h force S) (C : Core h) (N : NoZombie h) {fe : FileEnv} (hfe : ∀ g f, LoadKeeps force h S g → LoadKeeps force h S (fe.load g f).1) (K : LoadKeeps force h S g) (q : Id) : LoadKeeps force h S (getTarget fe g q).1 := by
  by_cases sq : S q
  · exact (K.search Z C N fe sq).1
  · unfold getTarget
    split
    · exact K
    · split
      · exact K.targetIn_out sq _ _
      · split
        · exact K
        · rename_i f _ _ _ _
          have A := hfe g f K
          dsimp only
          generalize fe.load g f = r at A ⊢
          obtain ⟨g1, r⟩ := r
          dsimp only at A ⊢
          split
          · exact A
          · exact (A.setLink sq).targetIn_out sq _ _

/-- loading the links of a circle, in any state reached by loading links -/
theorem circle_loads (Z : Circular h force S) (C : Core h) (N : NoZombie h) {fe : FileEnv} (hfe : ∀ g f, LoadKeeps force h S g → LoadKeeps force h S (fe.load g f).1) (n : Nat) (g : Heap) (p : Id) (K : LoadKeeps force h S g)
    (hr : g.isLinkRoot p = true) : LoadKeeps force h S (loadLinks (linkEnv fe) force n g p).1 ∧ (S p → ∃ e, (loadLinks (linkEnv fe) force n g p).2 = .error e) := by
  have := LoadKeeps.loadLinks Z.mem (Q := True) (force := force) (Or.inl trivial) (fun _ => rfl) (env := linkEnv fe) (fun g q K => K.find Z C N hfe q) (fun g p K sp => (K.search Z C N fe sp).2)
    (fun p sp => by obtain ⟨lk, a, -, b, -⟩ := Z.next p sp; exact ⟨lk, a, b⟩) n g p K hr
  exact ⟨this.1, this.2 trivial⟩

/-- loading links without force keeps the circle as well (it may take over link roots that were loaded before) -/
theorem quiet_loads (Z : Circular h force S) (C : Core h) (N : NoZombie h) {fe : FileEnv} (hfe : ∀ g f, LoadKeeps force h S g → LoadKeeps force h S (fe.load g f).1) (n : Nat) (g : Heap) (p : Id)
    (K : LoadKeeps force h S g) (hr : g.isLinkRoot p = true) : LoadKeeps force h S (loadLinks (linkEnv fe) false n g p).1 :=
  (LoadKeeps.loadLinks Z.mem (Q := force = false) (force := false) (by cases force <;> simp) (fun e => e) (env := linkEnv fe) (fun g q K => K.find Z C N hfe q) (fun g p K sp => (K.search Z C N fe sp).2)
    (fun p sp => by obtain ⟨lk, a, -, b, -⟩ := Z.next p sp; exact ⟨lk, a, b⟩) n g p K hr).1

theorem quiet_below (Z : Circular h force S) (C : Core h) (N : NoZombie h) {fe : FileEnv} (hfe : ∀ g f, LoadKeeps force h S g → LoadKeeps force h S (fe.load g f).1) (n : Nat) : ∀ (k : Nat) (g : Heap)
    (st : List (Id × Nat)) (b : Bool), LoadKeeps force h S g → ∀ r, loadBelow (linkEnv fe) false n k g st b = some r → LoadKeeps force h S r.1
  | 0, g, st, b, K, r, e => by cases st <;> cases e
  | k + 1, g, [], b, K, r, e => by simp only [loadBelow, Option.some.injEq] at e; subst e; exact K
  | k + 1, g, (c, i) :: st, b, K, r, e => by
    rw [loadBelow] at e
    split at e
    · exact quiet_below Z C N hfe n k g st b K r e
    · next x _ =>
      have A1 : LoadKeeps force h S (if g.isLinkRoot x then loadLinks (linkEnv fe) false n g x else (g, .ok false)).1 := by
        split
        · next hr => exact quiet_loads Z C N hfe n g x K hr
        · exact K
      dsimp only at e
      generalize (if g.isLinkRoot x then loadLinks (linkEnv fe) false n g x else (g, .ok false)) = y at A1 e
      obtain ⟨g1, y⟩ := y
      cases y with
      | error e' => simp only [Option.some.injEq] at e; subst e; exact A1
      | ok l => exact quiet_below Z C N hfe n k g1 _ _ A1 r e

theorem quiet_call (Z : Circular h force S) (C : Core h) (N : NoZombie h) {fe : FileEnv} (hfe : ∀ g f, LoadKeeps force h S g → LoadKeeps force h S (fe.load g f).1) (n k : Nat) (K : LoadKeeps force h S g) (x : Id)
    {r : Res Bool} (e : callLoadLinks (linkEnv fe) false n k g x = some r) : LoadKeeps force h S r.1 := by
  unfold callLoadLinks at e
  split at e
  · simp only [Option.some.injEq] at e; subst e; exact K
  · split at e
    · next hr => simp only [Option.some.injEq] at e; subst e; exact quiet_loads Z C N hfe _ g x K hr
    · exact quiet_below Z C N hfe _ k g _ _ K r e

/-- the walk over the items below: one of the open positions leads to the circle, it is never left without an exception -/
theorem circle_walk (Z : Circular h force S) (C : Core h) (N : NoZombie h) {fe : FileEnv} (hfe : ∀ g f, LoadKeeps force h S g → LoadKeeps force h S (fe.load g f).1) (n : Nat) : ∀ (k : Nat) (g : Heap) (A B : List (Id × Nat)) (q d : Id)
    (i j : Nat) (b : Bool), LoadKeeps force h S g → q < h.next → h.isLinkRoot q = false → (h.kids q)[j]? = some d → Contains h S d → i ≤ j →
    ∀ r, loadBelow (linkEnv fe) force n k g (A ++ (q, i) :: B) b = some r → ∃ e, r.2 = .error e
  | 0, g, A, B, q, d, i, j, b, K, hq, hr, hd, hc, hij, r, e => by cases A <;> cases e
  | k + 1, g, [], B, q, d, i, j, b, K, hq, hr, hd, hc, hij, r, e => by
    rw [List.nil_append, loadBelow] at e
    have hk := (K.node q hq hr).1
    have hj : j < (h.kids q).length := by
      by_contra hn
      rw [List.getElem?_eq_none (by omega)] at hd; cases hd
    have hi : i < (g.kids q).length := by rw [hk]; omega
    rw [List.getElem?_eq_getElem hi] at e
    simp only at e
    generalize hx : (g.kids q)[i] = x at e
    have A1 : LoadKeeps force h S (if g.isLinkRoot x then loadLinks (linkEnv fe) force n g x else (g, .ok false)).1 := by
      split
      · next hr => exact (circle_loads Z C N hfe n g x K hr).1
      · exact K
    have A2 : S x → ∃ e, (if g.isLinkRoot x then loadLinks (linkEnv fe) force n g x else (g, .ok false)).2 = .error e := by
      intro sx
      have hrx : g.isLinkRoot x = true := by rw [K.root_iff (Z.root x sx).1]; exact (Z.root x sx).2
      rw [if_pos hrx]
      exact (circle_loads Z C N hfe n g x K hrx).2 sx
    generalize (if g.isLinkRoot x then loadLinks (linkEnv fe) force n g x else (g, .ok false)) = y at A1 A2 e
    obtain ⟨g1, y⟩ := y
    cases y with
    | error e' => simp only [Option.some.injEq] at e; subst e; exact ⟨e', rfl⟩
    | ok l =>
      have nx : ¬ S x := fun sx => by obtain ⟨_, he⟩ := A2 sx; cases he
      simp only at e A1
      by_cases hij' : i = j
      · have hxd : x = d := by
          subst hij'
          rw [← hk, List.getElem?_eq_getElem hi, hx] at hd
          exact Option.some.inj hd
        subst hxd
        cases hc with
        | here sx => exact absurd sx nx
        | @down _ c hlt hrx hcx hcc =>
          have hne : g1.kids x ≠ [] := by
            rw [(A1.node x hlt hrx).1]; intro h0; rw [h0] at hcx; cases hcx
          rw [if_neg hne] at e
          obtain ⟨m, hm⟩ := List.mem_iff_getElem?.1 hcx
          exact circle_walk Z C N hfe n k g1 [] ((q, i + 1) :: B) x c 0 m (b || l) A1 hlt hrx hm hcc (Nat.zero_le _) r e
      · split at e
        · exact circle_walk Z C N hfe n k g1 [] B q d (i + 1) j (b || l) A1 hq hr hd hc (by omega) r e
        · exact circle_walk Z C N hfe n k g1 [(x, 0)] B q d (i + 1) j (b || l) A1 hq hr hd hc (by omega) r e
  | k + 1, g, (c, i') :: A, B, q, d, i, j, b, K, hq, hr, hd, hc, hij, r, e => by
    rw [List.cons_append, loadBelow] at e
    split at e
    · exact circle_walk Z C N hfe n k g A B q d i j b K hq hr hd hc hij r e
    · next x _ =>
      have A1 : LoadKeeps force h S (if g.isLinkRoot x then loadLinks (linkEnv fe) force n g x else (g, .ok false)).1 := by
        split
        · next hr => exact (circle_loads Z C N hfe n g x K hr).1
        · exact K
      dsimp only at e
      generalize (if g.isLinkRoot x then loadLinks (linkEnv fe) force n g x else (g, .ok false)) = y at A1 e
      obtain ⟨g1, y⟩ := y
      cases y with
      | error e' => simp only [Option.some.injEq] at e; subst e; exact ⟨e', rfl⟩
      | ok l =>
        simp only at e A1
        split at e
        · exact circle_walk Z C N hfe n k g1 ((c, i' + 1) :: A) B q d i j (b || l) A1 hq hr hd hc hij r e
        · exact circle_walk Z C N hfe n k g1 ((x, 0) :: (c, i' + 1) :: A) B q d i j (b || l) A1 hq hr hd hc hij r e

end
end ITree
