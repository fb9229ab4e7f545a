import Verif.Proofs.LoadLinks4
/-
`load_links` on the heap: the whole call.
-/
namespace ITree

theorem itemsLoop_node (f : Id → Bool) : ∀ (l : List Id) (h : Heap) (cs : List (Tag × Nat)) (i : Id), i ∉ l → (itemsLoop f h l cs).1.node i = h.node i := by
  intro l
  induction l with
  | nil => intro h cs i _; rfl
  | cons x xs ih =>
    intro h cs i hi
    simp only [List.mem_cons, not_or] at hi
    rw [itemsLoop]
    split
    · rfl
    · split
      · rfl
      · split
        · rfl
        · rename_i n cs' _ _ r _ _
          have := ih (h.setParent x (some { pid := r.pid, absC := r.absC, famC := (n : Nat), frozen := r.frozen })) cs' i hi.2
          have e2 : (h.setParent x (some { pid := r.pid, absC := r.absC, famC := (n : Nat), frozen := r.frozen })).node i = h.node i := by
            simp [Heap.setParent, Heap.modify, hi.1]
          simp only
          split <;> exact this.trans e2

theorem numberKids_spec {h : Heap} (W : WF h) (p : Id) : ∃ h1, numberKids h p = (h1, .ok (numbered h p)) ∧ CEq h h1 ∧ ∀ i, i ∉ h.kids p → h1.node i = h.node i := by
  have hl : ∀ (l : List Id) (x : Id), x ∈ l → (l.map fun c => (h.tag c, 0)).lookup (h.tag x) = some 0 := by
    intro l
    induction l with
    | nil => intro x hx; simp at hx
    | cons a l ih =>
      intro x hx
      rw [List.map_cons, List.lookup_cons]
      by_cases e : h.tag x = h.tag a
      · simp [e]
      · have : (h.tag x == h.tag a) = false := beq_eq_false_iff_ne.2 e
        simp only [this]
        rcases List.mem_cons.1 hx with rfl | hx
        · exact absurd rfl e
        · exact ih x hx
  obtain ⟨h1, e, C⟩ := itemsLoop_spec (fun _ => true) (h.kids p) [] h ((h.kids p).map fun c => (h.tag c, 0)) (fun x hx => by
      obtain ⟨r, a, _, b, c, _⟩ := W.kid_parent p x hx; exact ⟨r, a, b, c⟩) (fun x hx => by rw [hl _ x hx]; simp)
  refine ⟨h1, ?_, C, fun i hi => ?_⟩
  · rw [numberKids, e]
    simp only [List.filter_true, numberFrom_eq, numbered, List.nil_append]
  · have := itemsLoop_node (fun _ => true) (h.kids p) h ((h.kids p).map fun c => (h.tag c, 0)) i hi
    rw [e] at this; exact this

/-- the children with their keys and the information whether they are linked -/
def oldKids (h : Heap) (p : Id) : List (LKey × Bool × Id) := (numbered h p).map fun e => (e.1, (h.flags e.2).has Flags.linked, e.2)

theorem dictPut_new {α : Type} (k : LKey) (v : Option α) : ∀ (d : List (LEntry α)), k ∉ d.map (·.1) → dictPut k v d = d ++ [(k, v)] := by
  intro d
  induction d with
  | nil => intro _; rfl
  | cons e d ih =>
    obtain ⟨k', v'⟩ := e
    intro hn
    simp only [List.map_cons, List.mem_cons, not_or] at hn
    simp only [dictPut, if_neg (fun e : k' = k => hn.1 e.symm), ih hn.2, List.cons_append]

theorem foldPut {α : Type} : ∀ (l d : List (LEntry α)), ((d ++ l).map (·.1)).Nodup → l.foldl (fun d e => dictPut e.1 e.2 d) d = d ++ l := by
  intro l
  induction l with
  | nil => intro d _; simp
  | cons e l ih =>
    intro d hn
    have hk : e.1 ∉ d.map (·.1) := by
      rw [List.map_append, List.map_cons] at hn
      have := (List.nodup_append.1 hn).2.2
      intro hm
      exact this e.1 hm e.1 (by simp) rfl
    rw [List.foldl_cons, dictPut_new _ _ _ hk]
    have := ih (d ++ [(e.1, e.2)]) (by simpa using hn)
    rw [this]; simp

theorem localItems_eq {h : Heap} (W : WF h) (p : Id) (hph : ∀ c ∈ h.kids p, (h.flags c).has Flags.placeholder = false) : localItems h (numbered h p) = localEntries false (oldKids h p) := by
  unfold localItems
  have hE : ∀ e ∈ localEntries false (oldKids h p), entryOf h e = [e] := by
    intro e he
    unfold entryOf
    cases h2 : e.2 with
    | none => rfl
    | some x =>
      have hx : x ∈ (localEntries false (oldKids h p)).filterMap (·.2) := List.mem_filterMap.2 ⟨e, he, h2⟩
      have := (localEntries_sub (oldKids h p) false).subset hx
      have hk : x ∈ h.kids p := by
        rw [oldKids, List.map_map] at this
        have e3 : ((fun x : LKey × Bool × Id => x.2.2) ∘ fun e : LKey × Id => (e.1, (h.flags e.2).has Flags.linked, e.2)) = Prod.snd := rfl
        rw [e3, numbered_items] at this
        exact this
      simp [hph x hk]
  have e1 : (localEntries false (oldKids h p)).flatMap (entryOf h) = localEntries false (oldKids h p) := by
    generalize localEntries false (oldKids h p) = E at hE
    induction E with
    | nil => rfl
    | cons e E ih => rw [List.flatMap_cons, hE e (by simp), ih fun e he => hE e (by simp [he])]; rfl
  rw [show (numbered h p).map (fun e => (e.1, (h.flags e.2).has Flags.linked, e.2)) = oldKids h p from rfl, e1, foldPut]
  · rfl
  · rw [List.nil_append, localEntries_keys, oldKids, List.map_map]
    exact numbered_keys_nodup W p

theorem dropKids_facts (h : Heap) (p : Id) : (dropKids h p).next = h.next ∧ (∀ i, (dropKids h p).kids i = if i = p then [] else h.kids i) ∧ (∀ i, i ≠ p → (dropKids h p).node i = h.node i) ∧
    (∀ i, (dropKids h p).tag i = h.tag i) ∧ (∀ i, ((dropKids h p).node i).value = (h.node i).value) ∧ (∀ i, (dropKids h p).flags i = h.flags i) ∧ (∀ i, ((dropKids h p).node i).link = (h.node i).link) ∧
    (∀ i, ((dropKids h p).node i).parent = (h.node i).parent) ∧ ((dropKids h p).node p).fams = some [] := by
  unfold dropKids
  refine ⟨rfl, ?_, ?_, ?_, ?_, ?_, ?_, ?_, by simp [Heap.modify]⟩
  · intro i; simp only [Heap.kids, Heap.modify]; split <;> rfl
  · intro i hi; simp only [Heap.modify, if_neg hi]
  · intro i; simp only [Heap.tag, Heap.modify]; split <;> rfl
  · intro i; simp only [Heap.modify]; split <;> rfl
  · intro i; simp only [Heap.flags, Heap.modify]; split <;> rfl
  · intro i; simp only [Heap.modify]; split <;> rfl
  · intro i; simp only [Heap.modify]; split <;> rfl

theorem dropKids_wf {h : Heap} (W : WF h) (p : Id) : WF (dropKids h p) := by
  obtain ⟨f1, f2, f3, f4, f5, f6, f7, f8, f9⟩ := dropKids_facts h p
  refine W.update p (Nat.le_of_eq f1.symm) ?_ (fun i e => by rw [f2, if_neg e]) (fun i e _ => by rw [f3 i e]) ?_ (fun i e _ => by rw [f3 i e])
    (fun i _ c _ => f4 c) (fun i _ c _ => by rw [f8]; exact PEq.refl _) ?_
  · intro y hy
    rw [f1] at hy
    rw [f2, f8]
    obtain ⟨a, b⟩ := W.fresh y hy
    exact ⟨by split; rfl; exact a, b⟩
  · intro i F e h1 h2; rw [f3 i e] at h2; exact W.fams_nil i F h1 h2
  · have hk : (dropKids h p).kids p = [] := by rw [f2, if_pos rfl]
    constructor
    · intro c hc; rw [hk] at hc; simp at hc
    · rw [hk]; simp
    · intro c hc; rw [hk] at hc; simp at hc
    · intro hc; exact (hc hk).elim
    · intro hc; exact (hc hk).elim
    · intro F _ hF; rw [f9] at hF; simpa using hF.symm

/-- the effect of taking over the children of the source `s` -/
structure TakeSpec (h h' : Heap) (p s : Id) (nid : LKey → Id) : Prop where
  wf : WF h'
  forest : Forest h'
  next : h.next ≤ h'.next
  tag : ∀ i, i < h.next → h'.tag i = h.tag i
  value : ∀ i, i < h.next → (h'.node i).value = (h.node i).value
  flags : ∀ i, i < h.next → h'.flags i = h.flags i
  kids_o : ∀ i, i < h.next → i ≠ p → h'.kids i = h.kids i
  kids_p : h'.kids p = (mergeKids (oldKids h p) ((numbered h s).map Prod.fst)).map (resolve nid)
  link : ∀ i, i < h.next → i ≠ p → (∀ k, LOut.old i k true ∉ mergeKids (oldKids h p) ((numbered h s).map Prod.fst)) → (h'.node i).link = (h.node i).link
  cover : ∀ i k, LOut.old i k true ∈ mergeKids (oldKids h p) ((numbered h s).map Prod.fst) → (h'.node i).link = some { cover := some (nid k) }
  link_p : (h'.node p).link = (h.node p).link.map fun l => { l with tags := (((numbered h s).map Prod.fst).map (·.1)).eraseDups, keys := (numbered h s).map Prod.fst, loaded := true }
  par : ∀ i, i < h.next → i ∉ h.kids p → h'.par i = h.par i
  new : ∀ e ∈ numbered h s, ∃ T : Tree, T.id = nid e.1 ∧ Rep h' T ∧ T.shape = (linkedTree (h.tree e.2)).copyShape ∧ ∀ i ∈ T.ids, h.next ≤ i ∧ i < h'.next
  distinct : ((numbered h s).map fun e => nid e.1).Nodup
  free : ∀ e ∈ numbered h s, nid e.1 ∉ h'.kids p → h'.par (nid e.1) = none
  reads : ∀ q c, q ≠ p → c ∈ h.kids q → Readable h c → Readable h' c

theorem takeOver_spec {load : Heap → Id → Res Bool} {h : Heap} (W : WF h) (F : Forest h) {p s : Id} (hp : p < h.next)
    (hd : ∀ i ∈ (h.tree s).ids, i ∉ (h.tree p).ids) (hpl : ∀ c ∈ h.kids s, (h.flags c).has Flags.linkRoot = false ∧ (h.flags c).has Flags.linked = false)
    (hph : ∀ c ∈ h.kids p, (h.flags c).has Flags.placeholder = false) (hpr : ∀ c ∈ h.kids s, ∃ t m, (h.tagIdx c).2 = .ok (.pair t m)) :
    ∃ h' nid, takeOver load h p s = (h', .ok true) ∧ TakeSpec h h' p s nid ∧
      ∃ g1, numberKids h p = (g1, .ok (numbered h p)) ∧ CEq h g1 ∧ (dropKids g1 p).next = h.next ∧ (dropKids g1 p).kids s = (numbered h s).map (·.2) ∧
        LoopPre (dropKids g1 p) p s (numbered h s) (localItems g1 (numbered h p)) ∧ ∀ pre e post, numbered h s = pre ++ e :: post → nid e.1 = (loadLoop load p s (dropKids g1 p) (pre.map (·.2)) (localItems g1 (numbered h p)) []).1.next := by
  have RS : Rep h (h.tree s) := tree_rep W F s
  have RP : Rep h (h.tree p) := tree_rep W F p
  have bS : ∀ i, Below h s i ↔ i ∈ (h.tree s).ids := fun i => by have := below_iff_ids RS i; rw [tree_id] at this; exact this
  have bP : ∀ i, Below h p i ↔ i ∈ (h.tree p).ids := fun i => by have := below_iff_ids RP i; rw [tree_id] at this; exact this
  have dis : ∀ i, Below h s i → ¬ Below h p i := fun i a b => hd i ((bS i).1 a) ((bP i).1 b)
  have hsp : s ≠ p := fun e => dis s .refl (e ▸ .refl)
  obtain ⟨h1, e1, C1, N1⟩ := numberKids_spec W p
  have W1 := C1.wf W
  have F1 := C1.forest F
  obtain ⟨f1, f2, f3, f4, f5, f6, f7, f8, f9⟩ := dropKids_facts h1 p
  have W2 := dropKids_wf W1 p
  have n1 : numbered h1 p = numbered h p := numbered_congr W (C1.kids p) fun i _ => C1.tag i
  have eE : localItems h1 (numbered h p) = localEntries false (oldKids h p) := by
    rw [← n1, localItems_eq W1 p (fun c hc => by rw [C1.flags]; exact hph c (by rw [C1.kids] at hc; exact hc))]
    simp only [oldKids, n1]
    congr 2
    funext e
    rw [C1.flags]
  generalize hE : localEntries false (oldKids h p) = E at *
  generalize hh2 : dropKids h1 p = h2 at *
  have hn2 : h2.next = h.next := f1.trans C1.next
  have hk2 : ∀ i, h2.kids i = if i = p then [] else h.kids i := fun i => by rw [f2, C1.kids]
  have ht2 : ∀ i, h2.tag i = h.tag i := fun i => by rw [f4, C1.tag]
  have hsub2 : ∀ q c, c ∈ h2.kids q → c ∈ h.kids q := fun q c hc => by rw [hk2] at hc; split at hc; simp at hc; exact hc
  have F2 : Forest h2 := F.sub hsub2
  have bel2 : ∀ {a b}, Below h2 a b → Below h a b := by
    intro a b hb
    induction hb with
    | refl => exact .refl
    | step _ hc ih => exact .step ih (hsub2 _ _ hc)
  have Ek : ∀ z ∈ E.filterMap (·.2), z ∈ h.kids p := by
    intro z hz
    rw [← hE] at hz
    have := (localEntries_sub (oldKids h p) false).subset hz
    rw [oldKids, List.map_map] at this
    have e3 : ((fun x : LKey × Bool × Id => x.2.2) ∘ fun e : LKey × Id => (e.1, (h.flags e.2).has Flags.linked, e.2)) = Prod.snd := rfl
    rw [e3, numbered_items] at this
    exact this
  have End : (E.filterMap (·.2)).Nodup := by
    rw [← hE]
    refine (localEntries_sub (oldKids h p) false).nodup ?_
    rw [oldKids, List.map_map]
    have e3 : ((fun x : LKey × Bool × Id => x.2.2) ∘ fun e : LKey × Id => (e.1, (h.flags e.2).has Flags.linked, e.2)) = Prod.snd := rfl
    rw [e3, numbered_items]
    exact W.kids_nodup p
  have num2 : numbered h2 s = numbered h s := numbered_congr W (by rw [hk2, if_neg hsp]) fun i _ => ht2 i
  have memS : ∀ e ∈ numbered h s, e.2 ∈ h.kids s := fun e he => ((mem_numbered_iff W (t := e.1.1) (n := e.1.2)).1 he).1
  have tree2 : ∀ e ∈ numbered h s, h2.tree e.2 = h.tree e.2 := by
    intro e he
    have R := tree_rep W F e.2
    have R3 : Rep h2 (h.tree e.2) := R.congr fun i hi => by
      have hb : Below h e.2 i := by have := below_iff_ids R i; rw [tree_id] at this; exact this.2 hi
      have hip : i ≠ p := by
        rintro rfl
        exact dis i (Below.head (memS e he) hb) .refl
      exact ⟨ht2 i, by rw [f5, C1.value], by rw [f6, C1.flags], by rw [f7, C1.link], by rw [hk2, if_neg hip]⟩
    have := R3.tree W2
    rw [tree_id] at this
    exact this
  have P : LoopPre h2 p s (numbered h s) E := by
    refine ⟨W2, F2, by rw [hn2]; exact hp, hsp, fun e he => by rw [num2]; exact he, numbered_keys_nodup W s, ?_, ?_, ?_, End, ?_⟩
    · intro e he
      rw [tree2 e he]
      have R := tree_rep W F e.2
      have hb : ∀ i ∈ (h.tree e.2).ids, Below h s i := fun i hi => by
        have := below_iff_ids R i; rw [tree_id] at this; exact Below.head (memS e he) (this.2 hi)
      exact ⟨fun hm => dis p (hb p hm) .refl, fun z hz hm => dis z (hb z hm) (.step .refl (Ek z hz))⟩
    · intro e he; rw [f6, C1.flags]; exact hpl e.2 (memS e he)
    · intro e he
      have hes := memS e he
      have hx := tagIdx_numbered W he (hpr e.2 hes)
      have et := ((mem_numbered_iff W (t := e.1.1) (n := e.1.2)).1 he).2.1
      have hnp : e.2 ∉ h.kids p := fun hm => hsp (W.parent_unique hes hm)
      have := tagIdx_pair_congr (h := h) (h1 := h2) W W2 (p := s) (x := e.2) hes (by rw [hk2, if_neg hsp]) (fun d _ => ht2 d) (by rw [f8, N1 e.2 hnp]) (m := e.1.2) (by rw [et]; exact hx)
      rw [et] at this; exact this
    · intro z hz
      have hzk := Ek z hz
      refine ⟨by rw [hn2]; exact W.kids_lt p z hzk, fun q hm => ?_, fun b => F.irrefl hzk (bel2 b), ?_⟩
      · have hm' := hm
        rw [hk2] at hm
        split at hm
        · simp at hm
        · next hq => exact hq (W.parent_unique (hsub2 q z hm') hzk)
      · have : h2.par z = h1.par z := by simp only [Heap.par, f8]
        rw [this, C1.par']
        exact par_child W hzk
  obtain ⟨h3, E', nid, e3, L, ids⟩ := loadLoop_spec (load := load) (numbered h s) E [] P
  rw [num2] at L
  rw [numbered_items, List.nil_append] at e3
  have hk2s : h2.kids s = h.kids s := by rw [hk2, if_neg hsp]
  generalize hh4 : (E'.filterMap (·.2)).foldl (fun h z => appendItem h p z) h3 = h4 at L
  have hM : mergeLoop (fun k => decide (k ∈ (numbered h s).map Prod.fst)) ((numbered h s).map (·.1)) E = mergeKids (oldKids h p) ((numbered h s).map Prod.fst) := by
    rw [mergeKids, hE]
  rw [hM] at L
  have hcov : ∀ k, LOut.old p k true ∉ mergeKids (oldKids h p) ((numbered h s).map Prod.fst) := by
    intro k hk
    rw [← hM] at hk
    have := Ek p (mergeLoop_old _ _ _ End p k true hk)
    exact F.irrefl this .refl
  let upd : LinkSt → LinkSt := fun l => { l with tags := (((numbered h s).map Prod.fst).map (·.1)).eraseDups, keys := (numbered h s).map Prod.fst, loaded := true }
  have SE : StructEq h4 (h4.modify p fun n => { n with link := n.link.map upd }) :=
    DataOnly.structEq (f := fun n => { n with link := n.link.map upd }) ⟨fun _ => rfl, fun _ => rfl, fun _ => rfl, fun _ => rfl, fun _ => rfl⟩ h4 p
  have ev : ∀ i, ((h4.modify p fun n => { n with link := n.link.map upd }).node i).value = (h4.node i).value := by
    intro i; simp only [Heap.modify]; split <;> rfl
  have ef : ∀ i, (h4.modify p fun n => { n with link := n.link.map upd }).flags i = h4.flags i := by
    intro i; simp only [Heap.flags, Heap.modify]; split <;> rfl
  have el : ∀ i, i ≠ p → ((h4.modify p fun n => { n with link := n.link.map upd }).node i).link = (h4.node i).link := by
    intro i hi; simp only [Heap.modify, if_neg hi]
  have elp : ((h4.modify p fun n => { n with link := n.link.map upd }).node p).link = (h4.node p).link.map upd := by simp [Heap.modify]
  refine ⟨h4.modify p fun n => { n with link := n.link.map upd }, nid, ?_, ?_, h1, e1, C1, by rw [hh2]; exact hn2, by rw [hh2, hk2, if_neg hsp]; exact (numbered_items h s).symm, by rw [eE, hh2]; exact P, fun pre e post hh => by rw [eE, hh2]; exact ids pre e post hh⟩
  · simp only [takeOver, e1, eE, hh2, hk2s, e3, hh4, upd]
  · generalize (h4.modify p fun n => { n with link := n.link.map upd }) = h5 at *
    have hpar : ∀ i, h5.par i = h4.par i := fun i => by simp only [Heap.par, SE.parent]
    refine ⟨SE.wf L.wf, L.forest.sub (fun q c hc => by rw [SE.kids] at hc; exact hc), by rw [SE.next, ← hn2]; exact L.next, ?_, ?_, ?_, ?_, ?_, ?_, ?_, ?_, ?_, ?_, L.distinct, ?_, ?_⟩
    · intro i hi; rw [SE.tag, L.tag i (by rw [hn2]; exact hi), ht2]
    · intro i hi; rw [ev, L.value i (by rw [hn2]; exact hi), f5, C1.value]
    · intro i hi; rw [ef, L.flags i (by rw [hn2]; exact hi), f6, C1.flags]
    · intro i hi e; rw [SE.kids, L.kids_o i (by rw [hn2]; exact hi) e, hk2, if_neg e]
    · rw [SE.kids, L.kids_p, hk2, if_pos rfl, List.nil_append]
    · intro i hi e hn; rw [el i e, L.link i (by rw [hn2]; exact hi) hn, f7, C1.link]
    · intro i k hk
      rw [el i (by rintro rfl; exact hcov k hk), L.cover i k hk]
    · rw [elp, L.link p (by rw [hn2]; exact hp) hcov, f7, C1.link]
    · intro i hi hn
      rw [hpar, L.par i (by rw [hn2]; exact hi) (fun hm => hn (Ek i hm))]
      simp only [Heap.par, f8]
      exact C1.par' i
    · intro e he
      obtain ⟨T, t1, t2, t3, t4⟩ := L.new e he
      refine ⟨T, t1, t2.congr fun i hi => ?_, by rw [t3, tree2 e he], fun i hi => ?_⟩
      · have := t4 i hi
        rw [hn2] at this
        exact ⟨SE.tag i, ev i, ef i, el i (by omega), SE.kids i⟩
      · have := t4 i hi
        rw [hn2] at this
        rw [SE.next]; exact this
    · intro e he hn
      rw [hpar]
      exact L.free e he (by rw [SE.kids] at hn; exact hn)
    · intro q d e hd R
      have hq : q < h.next := W.lt_of_kids (by intro h0; rw [h0] at hd; simp at hd)
      have hdp : d ∉ h.kids p := fun hm => e (W.parent_unique hd hm)
      have hkq : h2.kids q = h.kids q := by rw [hk2, if_neg e]
      have R2 : Readable h2 d := R.congr W W2 hd hkq (fun y _ => ht2 y) (by rw [f8, N1 d hdp])
      have R4 := L.reads q d (by rw [hn2]; exact hq) e (by rw [hkq]; exact hd) (fun hm => hdp (Ek d hm)) R2
      have hk4 : h4.kids q = h.kids q := by rw [L.kids_o q (by rw [hn2]; exact hq) e, hkq]
      exact R4.congr L.wf (SE.wf L.wf) (by rw [hk4]; exact hd) (SE.kids q) (fun y _ => SE.tag y) (by rw [SE.parent])

end ITree
