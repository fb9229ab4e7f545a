import Verif.Proofs.LoadLinks3
/-
`load_links` on the heap: the rounds of the loop put together.
-/
namespace ITree

theorem any_covers {os : List (LOut Id)} {i : Id} : os.any (outCovers i) = true ↔ ∃ k, LOut.old i k true ∈ os := by
  rw [List.any_eq_true]
  constructor
  · rintro ⟨o, ho, h⟩
    cases o with
    | new k => simp [outCovers] at h
    | old x k c => simp [outCovers] at h; obtain ⟨rfl, rfl⟩ := h; exact ⟨k, ho⟩
  · rintro ⟨k, hk⟩; exact ⟨_, hk, by simp [outCovers]⟩

theorem mergeLoop_old (inSrc : LKey → Bool) : ∀ (src : List LKey) (E : List (LEntry Id)), (E.filterMap (·.2)).Nodup → ∀ z k c, LOut.old z k c ∈ mergeLoop inSrc src E → z ∈ E.filterMap (·.2) := by
  intro src
  induction src with
  | nil =>
    intro E _ z k c h
    simp only [mergeLoop, List.mem_filterMap, Option.map_eq_some_iff] at h
    obtain ⟨e, he, y, hy, h⟩ := h
    simp only [LOut.old.injEq] at h
    rw [h.1] at hy
    exact List.mem_filterMap.2 ⟨e, he, hy⟩
  | cons key rest ih =>
    intro E hn z k c h
    rw [mergeLoop_step, List.mem_append] at h
    obtain ⟨s1, s2, s3, s4⟩ := stepOuts_kept inSrc key E hn
    rcases h with h | h
    · exact s2 z (List.mem_filterMap.2 ⟨_, h, rfl⟩)
    · exact s3.subset (ih _ (s3.nodup hn) z k c h)

theorem mergeLoop_standsMem (inSrc : LKey → Bool) (src : List LKey) (E : List (LEntry Id)) {o : LOut Id} (ho : o ∈ mergeLoop inSrc src E) {k : LKey} (hs : o.stands = some k) : k ∈ src := by
  have : k ∈ (mergeLoop inSrc src E).filterMap LOut.stands := List.mem_filterMap.2 ⟨o, ho, hs⟩
  rwa [mergeLoop_stands] at this

/-- a round and the rounds after it -/
theorem LoadSpec.trans {h h1 h2 : Heap} {p x : Id} {X X' : List Id} {key : LKey} {c : Id} {cs : List (LKey × Id)} {nid2 : LKey → Id} {os1 os2 : List (LOut Id)} (hp : p < h.next)
    (A : LoadSpec h h1 p X (fun _ => x) [(key, c)] os1) (B : LoadSpec h1 h2 p X' nid2 cs os2) (hX : ∀ z ∈ X', z ∈ X) (hlt : ∀ z ∈ X, z < h.next)
    (h1k : ∀ o ∈ os1, ∀ k, o.stands = some k → k = key) (h2k : ∀ o ∈ os2, ∀ k, o.stands = some k → k ∈ cs.map (·.1)) (hkey : key ∉ cs.map (·.1))
    (ho1 : ∀ z k b, LOut.old z k b ∈ os1 → z ∈ X) (ho2 : ∀ z k b, LOut.old z k b ∈ os2 → z ∈ X) (hdis : ∀ z k k', LOut.old z k true ∈ os1 → LOut.old z k' true ∉ os2)
    (ht : ∀ e ∈ cs, h1.tree e.2 = h.tree e.2) : LoadSpec h h2 p X (fun k => if k = key then x else nid2 k) ((key, c) :: cs) (os1 ++ os2) := by
  have hlt' : ∀ i, i < h.next → i < h1.next := fun i hi => Nat.lt_of_lt_of_le hi A.next
  have hne : ∀ e ∈ cs, e.1 ≠ key := fun e he hk => hkey (hk ▸ List.mem_map.2 ⟨e, he, rfl⟩)
  obtain ⟨T0, t1, t2, t3, t4⟩ := A.new (key, c) (by simp)
  have hx := t4 x (by rw [← t1]; exact Tree.id_mem_ids _)
  have hx2 : ∀ e ∈ cs, h1.next ≤ nid2 e.1 := fun e he => by
    obtain ⟨T, u1, _, _, u4⟩ := B.new e he
    exact (u4 _ (by rw [← u1]; exact Tree.id_mem_ids _)).1
  refine ⟨B.wf, B.forest, Nat.le_trans A.next B.next, fun i hi => (B.tag i (hlt' i hi)).trans (A.tag i hi), fun i hi => (B.value i (hlt' i hi)).trans (A.value i hi),
    fun i hi => (B.flags i (hlt' i hi)).trans (A.flags i hi), fun i hi e => (B.kids_o i (hlt' i hi) e).trans (A.kids_o i hi e), ?_, ?_, ?_, ?_, ?_, ?_, ?_, ?_⟩
  · rw [B.kids_p, A.kids_p, List.map_append, List.append_assoc]
    congr 2
    · apply List.map_congr_left
      intro o ho
      cases o with
      | new k => have := h1k _ ho k rfl; subst this; simp [resolve]
      | old z k b => rfl
    · apply List.map_congr_left
      intro o ho
      cases o with
      | new k => have := h2k _ ho k rfl; simp only [resolve]; rw [if_neg (fun e : k = key => hkey (e ▸ this))]
      | old z k b => rfl
  · intro i hi hn
    rw [B.link i (hlt' i hi) fun k hk => hn k (List.mem_append.2 (Or.inr hk)), A.link i hi fun k hk => hn k (List.mem_append.2 (Or.inl hk))]
  · intro i k hk
    rcases List.mem_append.1 hk with hk | hk
    · have hi := hlt i (ho1 i k true hk)
      rw [B.link i (hlt' i hi) fun k' hk' => hdis i k k' hk hk', A.cover i k hk]
      simp [h1k _ hk k rfl]
    · have := h2k _ hk k rfl
      rw [B.cover i k hk, if_neg (fun e : k = key => hkey (e ▸ this))]
  · intro i hi hn
    rw [B.par i (hlt' i hi) fun hm => hn (hX i hm), A.par i hi hn]
  · intro e he
    rcases List.mem_cons.1 he with rfl | he
    · refine ⟨T0, by simp [t1], t2.congr fun i hi => ?_, t3, fun i hi => ⟨(t4 i hi).1, Nat.lt_of_lt_of_le (t4 i hi).2 B.next⟩⟩
      obtain ⟨a, b⟩ := t4 i hi
      exact ⟨B.tag i b, B.value i b, B.flags i b, B.link i b (fun k hk => by have := hlt i (ho2 i k true hk); omega), B.kids_o i b (by omega)⟩
    · obtain ⟨T, u1, u2, u3, u4⟩ := B.new e he
      refine ⟨T, by rw [u1, if_neg (hne e he)], u2, by rw [u3, ht e he], fun i hi => ⟨Nat.le_trans A.next (u4 i hi).1, (u4 i hi).2⟩⟩
  · rw [List.map_cons, List.nodup_cons]
    have em : (cs.map fun e => (fun k => if k = key then x else nid2 k) e.1) = cs.map fun e => nid2 e.1 := by
      apply List.map_congr_left
      intro e he
      simp only [if_neg (hne e he)]
    constructor
    · rw [em]
      simp only [if_true]
      intro hm
      obtain ⟨e, he, e2⟩ := List.mem_map.1 hm
      have := hx2 e he
      omega
    · rw [em]; exact B.distinct
  · intro e he hn
    rcases List.mem_cons.1 he with rfl | he
    · simp only [if_true] at hn ⊢
      rw [B.par x hx.2 fun hm => by have := hlt x (hX x hm); omega]
      exact A.free (key, c) (by simp) fun hm => hn (by rw [B.kids_p]; exact List.mem_append.2 (Or.inl hm))
    · simp only [if_neg (hne e he)] at hn ⊢
      exact B.free e he hn
  · intro q d hq e hd hX' R
    exact B.reads q d (hlt' q hq) e (by rw [A.kids_o q hq e]; exact hd) (fun hm => hX' (hX d hm)) (A.reads q d hq e hd hX' R)

theorem numbered_congr {h h' : Heap} (W : WF h) {s : Id} (hk : h'.kids s = h.kids s) (ht : ∀ i, i < h.next → h'.tag i = h.tag i) : numbered h' s = numbered h s := by
  unfold numbered
  rw [hk]
  apply List.map_congr_left
  rintro ⟨x, i⟩ hx
  have hm : x ∈ h.kids s := List.mem_of_getElem? (List.mem_zipIdx_iff_getElem?.1 hx)
  have ex := ht x (W.kids_lt s x hm)
  simp only [ex, Prod.mk.injEq, true_and, and_true]
  congr 1
  apply List.filter_congr
  intro y hy
  rw [ht y (W.kids_lt s y (List.mem_of_mem_take hy))]

/-- one round -/
theorem loadStep {load : Heap → Id → Res Bool} {h : Heap} {p s : Id} {key : LKey} {c : Id} {cs : List (LKey × Id)} {E : List (LEntry Id)} (P : LoopPre h p s ((key, c) :: cs) E) :
    ∃ h3, (∀ l ks, loadLoop load p s h (c :: l) E ks = loadLoop load p s h3 l (stepRest (fun k => decide (k ∈ (numbered h s).map Prod.fst)) key E) (ks ++ [key])) ∧
      LoopPre h3 p s cs (stepRest (fun k => decide (k ∈ (numbered h s).map Prod.fst)) key E) ∧ numbered h3 s = numbered h s ∧ (∀ e ∈ cs, h3.tree e.2 = h.tree e.2) ∧
      LoadSpec h h3 p (E.filterMap (·.2)) (fun _ => h.next) [(key, c)] (stepOuts (fun k => decide (k ∈ (numbered h s).map Prod.fst)) key E) := by
  have W := P.wf
  obtain ⟨cl, ct, cf⟩ := (mem_numbered_iff W (s := s) (c := c) (t := key.1) (n := key.2)).1 (P.sub (key, c) (by simp))
  have hcl := W.kids_lt s c cl
  have hsl := W.lt_of_kids (p := s) (by intro e; rw [e] at cl; simp at cl)
  obtain ⟨pl1, pl2⟩ := P.plain (key, c) (by simp)
  -- the clone
  have RT : Rep h (h.tree c) := tree_rep W P.forest c
  have hfl : (h.tree c).flags = h.flags c := by
    have := RT
    have hid := tree_id h c
    generalize h.tree c = T at this hid
    obtain ⟨i, t, v, f, l, ks⟩ := T
    simp only [Tree.id] at hid; subst hid
    simp only [Rep] at this
    exact this.2.2.1.symm
  have e1 := linkedItem_plain load h c pl1 pl2 hfl
  have S := build_spec W (linkedTree (h.tree c))
  have N : ∀ i, i < h.next → (build h (linkedTree (h.tree c))).1.node i = h.node i :=
    (allocKids_spec W (copyNode (linkedTree (h.tree c))) rfl rfl rfl (linkedTree (h.tree c)).kids).node
  have hx := S.root
  have hxlt := S.lt
  have hxp := S.par
  obtain ⟨T0, t1, t2, t3, t4⟩ := S.rep
  have W1 := S.wf
  have F1 := S.forest P.forest
  have hn1 := S.unchanged.next
  have U := S.unchanged
  generalize hh1 : (build h (linkedTree (h.tree c))).1 = h1 at *
  rw [hx] at e1 hxlt hxp t1
  clear hx S
  have hk1 : ∀ i, i < h.next → h1.kids i = h.kids i := fun i hi => by simp only [Heap.kids, N i hi]
  have hg1 : ∀ i, i < h.next → h1.tag i = h.tag i := fun i hi => by simp only [Heap.tag, N i hi]
  -- its key
  have hpr := P.pair (key, c) (by simp)
  have e2 : (h1.tagIdx c).2 = .ok (.pair key.1 key.2) := by
    have := tagIdx_pair_congr (h := h) (h1 := h1) W W1 (p := s) (x := c) cl (hk1 s hsl) (fun d hd => hg1 d (W.kids_lt s d hd)) (by rw [N c hcl]) (m := key.2) (by rw [ct]; exact hpr)
    rw [ct] at this; exact this
  have C := tagIdx_ceq h1 c
  have N2 := fun i (hi : i ≠ c) => tagIdx_pair_node W1 (p := s) (x := c) (by rw [hk1 s hsl]; exact cl) e2 i hi
  generalize hh2 : (h1.tagIdx c).1 = h2 at *
  have W2 : WF h2 := C.wf W1
  have F2 : Forest h2 := C.forest F1
  have hnx2 : h2.next = h1.next := C.next
  have hk2 : ∀ i, i < h.next → h2.kids i = h.kids i := fun i hi => by rw [C.kids, hk1 i hi]
  have num2 : numbered h2 s = numbered h s := numbered_congr W (hk2 s hsl) fun i hi => by rw [C.tag, hg1 i hi]
  have ein : (fun k : LKey => containsTarget h2 s (.key k.1 (.int k.2))) = fun k => decide (k ∈ (numbered h s).map Prod.fst) := by
    funext k; rw [contains_key W2, num2]
  generalize hin : (fun k : LKey => decide (k ∈ (numbered h s).map Prod.fst)) = inSrc at *
  -- the outputs
  obtain ⟨s1, s2, s3, s4⟩ := stepOuts_kept inSrc key E P.nodup
  have hst := stepOuts_stands inSrc key E
  have hxE : h.next ∉ E.filterMap (·.2) := fun hm => by have := (P.stray _ hm).1; omega
  have hond := outIds_nodup (x := h.next) hst s1 fun hm => hxE (s2 _ hm)
  have hmem : ∀ z ∈ (stepOuts inSrc key E).map (outId h.next), z = h.next ∨ z ∈ (stepOuts inSrc key E).filterMap LOut.kept := by
    intro z hz
    obtain ⟨o, ho, e⟩ := List.mem_map.1 hz
    cases o with
    | new k => left; exact e.symm
    | old y k b => right; simp only [outId] at e; subst e; exact List.mem_filterMap.2 ⟨_, ho, rfl⟩
  have hkids_new : ∀ q, h.next ≤ q → ∀ z, z ∈ E.filterMap (·.2) → z ∉ h2.kids q := by
    intro q hq z hz hm
    obtain ⟨r, r1, r2, _⟩ := W2.kid_parent q z hm
    obtain ⟨z1, _, _, z4⟩ := P.stray z hz
    have : h2.par z = some q := by simp [Heap.par, r1, r2]
    rw [C.par', Heap.par, N z z1] at this
    rw [Heap.par] at z4
    rw [z4] at this
    simp only [Option.some.injEq] at this
    have := P.lt
    omega
  have hstray2 : ∀ z ∈ E.filterMap (·.2), ∀ q, z ∉ h2.kids q := by
    intro z hz q
    by_cases hq : q < h.next
    · rw [hk2 q hq]; exact (P.stray z hz).2.1 q
    · exact hkids_new q (by omega) z hz
  have hbel2 : ∀ z ∈ E.filterMap (·.2), ¬ Below h2 z p := fun z hz b => (P.stray z hz).2.2.1 (below_old W (fun i hi _ => hk2 i hi) (P.stray z hz).1 b)
  have R2 : Rep h2 T0 := t2.congr fun i _ => ⟨C.tag i, C.value i, C.flags i, C.link i, C.kids i⟩
  have hxpar2 : (h2.node h.next).parent = none := by rw [N2 h.next (by omega)]; exact hxp
  have Q := putAll_spec (p := p) (x := h.next) (stepOuts inSrc key E) W2 F2 (by rw [hnx2]; have := P.lt; omega) hond (fun z hz => by
    rcases hmem z hz with rfl | hz
    · refine ⟨by rw [hnx2]; exact hxlt, fun q => W2.not_child hxpar2 q, fun b => ?_⟩
      rw [← t1, below_iff_ids R2] at b
      have := (t4 p b).1
      have := P.lt
      omega
    · have hzE := s2 z hz
      refine ⟨by rw [hnx2]; have := (P.stray z hzE).1; omega, hstray2 z hzE, hbel2 z hzE⟩)
  generalize hh3 : (stepOuts inSrc key E).foldl (putOut h.next p) h2 = h3 at *
  have hn3 : h3.next = h1.next := Q.next.trans hnx2
  have oldX : ∀ z k b, LOut.old z k b ∈ stepOuts inSrc key E → z ∈ E.filterMap (·.2) := fun z k b ho => s2 z (List.mem_filterMap.2 ⟨_, ho, rfl⟩)
  have tag3 : ∀ i, i < h.next → h3.tag i = h.tag i := fun i hi => by rw [Q.tag, C.tag, hg1 i hi]
  have val3 : ∀ i, i < h.next → (h3.node i).value = (h.node i).value := fun i hi => by rw [Q.value, C.value, N i hi]
  have fla3 : ∀ i, i < h.next → h3.flags i = h.flags i := fun i hi => by rw [Q.flags, C.flags]; simp only [Heap.flags, N i hi]
  have kid3 : ∀ i, i < h.next → i ≠ p → h3.kids i = h.kids i := fun i hi e => by rw [Q.kids_o i e, hk2 i hi]
  have lnk3 : ∀ i, i < h.next → (∀ k, LOut.old i k true ∉ stepOuts inSrc key E) → (h3.node i).link = (h.node i).link := fun i hi hn => by
    rw [Q.link, if_neg (fun ha => by obtain ⟨k, hk⟩ := any_covers.1 ha; exact hn k hk), C.link, N i hi]
  have par3 : ∀ i, i ≠ h.next → i ∉ (stepOuts inSrc key E).filterMap LOut.kept → (h3.node i).parent = (h2.node i).parent := fun i hi hn =>
    Q.parent i fun hm => by rcases hmem i hm with e | e; exact hi e; exact hn e
  have num3 : numbered h3 s = numbered h s := numbered_congr W (kid3 s hsl P.ne) tag3
  have tree3 : ∀ e ∈ cs, h3.tree e.2 = h.tree e.2 := by
    intro e he
    have R := tree_rep W P.forest e.2
    obtain ⟨a1, a2⟩ := P.apart e (by simp [he])
    have hek : e ∈ numbered h s := P.sub e (by simp [he])
    have hel := W.kids_lt s e.2 ((mem_numbered_iff W (t := e.1.1) (n := e.1.2)).1 hek).1
    have R3 : Rep h3 (h.tree e.2) := R.congr fun i hi => by
      have hil := R.ids_lt W (by rw [tree_id]; exact hel) i hi
      exact ⟨tag3 i hil, val3 i hil, fla3 i hil, lnk3 i hil (fun k hk => a2 i (oldX i k true hk) hi), kid3 i hil (fun e => a1 (e ▸ hi))⟩
    have := R3.tree Q.wf
    rw [tree_id] at this
    exact this
  refine ⟨h3, ?_, ?_, num3, tree3, ?_⟩
  · intro l ks
    rw [loadLoop]
    simp only [e1, e2, hh2]
    unfold stepOuts stepRest at *
    simp only [Int.toNat_natCast, ein]
    by_cases hkE : key ∈ E.map (·.1)
    · have hkE' : (key.1, key.2) ∈ E.map (·.1) := hkE
      rw [if_pos hkE']
      rw [if_pos hkE] at hh3 ⊢
      rw [← hh3]
    · have hkE' : ¬ (key.1, key.2) ∈ E.map (·.1) := hkE
      rw [if_neg hkE']
      rw [if_neg hkE] at hh3 ⊢
      rw [← hh3]
      rfl
  · refine ⟨Q.wf, Q.forest, by rw [hn3]; have := P.lt; omega, P.ne, fun e he => by rw [num3]; exact P.sub e (by simp [he]), ?_, ?_, ?_, ?_, s3.nodup P.nodup, ?_⟩
    · exact (List.nodup_cons.1 P.keys).2
    · intro e he
      rw [tree3 e he]
      obtain ⟨a1, a2⟩ := P.apart e (by simp [he])
      exact ⟨a1, fun z hz => a2 z (s3.subset hz)⟩
    · intro e he
      have hek : e ∈ numbered h s := P.sub e (by simp [he])
      have hel := W.kids_lt s e.2 ((mem_numbered_iff W (t := e.1.1) (n := e.1.2)).1 hek).1
      rw [fla3 e.2 hel]; exact P.plain e (by simp [he])
    · intro e he
      have hek : e ∈ numbered h s := P.sub e (by simp [he])
      obtain ⟨ec, et, ef⟩ := (mem_numbered_iff W (t := e.1.1) (n := e.1.2)).1 hek
      have hel := W.kids_lt s e.2 ec
      have hne : e.2 ≠ c := by
        intro heq
        have hcf := (mem_numbered_iff W (s := s) (c := c) (t := key.1) (n := key.2)).1 (P.sub (key, c) (by simp))
        rw [heq] at ef et
        have ett : e.1.1 = key.1 := et.symm.trans ct
        rw [ett] at ef
        have hnd : (famView h s key.1).Nodup := (W.kids_nodup s).filter _
        obtain ⟨l1, q1⟩ := List.getElem?_eq_some_iff.1 ef
        obtain ⟨l2, q2⟩ := List.getElem?_eq_some_iff.1 cf
        have en := (List.Nodup.getElem_inj_iff hnd).1 (q1.trans q2.symm)
        have : e.1 = key := Prod.ext ett en
        exact (List.nodup_cons.1 P.keys).1 (this ▸ List.mem_map.2 ⟨e, he, rfl⟩)
      have hnk : e.2 ∉ (stepOuts inSrc key E).filterMap LOut.kept := fun hm =>
        (P.apart e (by simp [he])).2 e.2 (s2 _ hm) (by have := Tree.id_mem_ids (h.tree e.2); rw [tree_id] at this; exact this)
      have := tagIdx_pair_congr (h := h) (h1 := h3) W Q.wf (p := s) (x := e.2) ec (kid3 s hsl P.ne) (fun d hd => tag3 d (W.kids_lt s d hd))
        (by rw [par3 e.2 (by omega) hnk, N2 e.2 hne, N e.2 hel]) (m := e.1.2) (by rw [et]; exact P.pair e (by simp [he]))
      rw [et] at this; exact this
    · intro z hz
      have hzE := s3.subset hz
      obtain ⟨z1, z2, z3, z4⟩ := P.stray z hzE
      have hnk : z ∉ (stepOuts inSrc key E).filterMap LOut.kept := fun hm => s4 z hm hz
      refine ⟨by rw [hn3]; omega, fun q hm => ?_, fun b => z3 (below_old W kid3 z1 b), ?_⟩
      · by_cases e : q = p
        · subst e
          rw [Q.kids_p, List.mem_append] at hm
          rcases hm with hm | hm
          · exact hstray2 z hzE _ hm
          · rcases hmem z hm with e | e
            · omega
            · exact hnk e
        · rw [Q.kids_o q e] at hm; exact hstray2 z hzE q hm
      · rw [Heap.par, par3 z (by omega) hnk]
        have : h2.par z = h1.par z := C.par' z
        rw [Heap.par, Heap.par] at this
        rw [this, N z z1]; exact z4
  · refine ⟨Q.wf, Q.forest, by rw [hn3]; exact hn1, tag3, val3, fla3, kid3, ?_, lnk3, ?_, ?_, ?_, by simp, ?_, ?_⟩
    · rw [Q.kids_p, hk2 p P.lt]
      congr 1
    · intro i k hk
      rw [Q.link, if_pos (any_covers.2 ⟨k, hk⟩)]
    · intro i hi hn
      have : h2.par i = h1.par i := C.par' i
      rw [Heap.par, Heap.par] at this
      rw [Heap.par, par3 i (by omega) (fun hm => hn (s2 i hm)), this, N i hi, Heap.par]
    · intro e he
      simp only [List.mem_singleton] at he
      subst he
      refine ⟨T0, t1, R2.congr fun i hi => ?_, t3, fun i hi => by rw [hn3]; exact t4 i hi⟩
      obtain ⟨a, b⟩ := t4 i hi
      exact ⟨Q.tag i, Q.value i, Q.flags i, by rw [Q.link, if_neg (fun ha => by
        obtain ⟨k, hk⟩ := any_covers.1 ha; have := (P.stray i (oldX i k true hk)).1; omega)], Q.kids_o i (by have := P.lt; omega)⟩
    · intro e he hn
      rw [Heap.par, Q.parent h.next fun hm => hn (by rw [Q.kids_p]; exact List.mem_append.2 (Or.inr hm)), hxpar2]; rfl
    · intro q d hq e hd hX' R
      have hdl := W.kids_lt q d hd
      have hnk : d ∉ (stepOuts inSrc key E).filterMap LOut.kept := fun hm => hX' (s2 d hm)
      have h23 : Readable h2 d → Readable h3 d := fun R2 => R2.congr W2 Q.wf (p := q) (by rw [hk2 q hq]; exact hd) (Q.kids_o q e) (fun y _ => Q.tag y) (by rw [par3 d (by omega) hnk])
      apply h23
      by_cases hdc : d = c
      · subst hdc
        obtain ⟨FF, -⟩ := tagIdx_makes_fresh W1 (p := s) (x := d) (by rw [hk1 s hsl]; exact cl)
        rw [hh2] at FF
        obtain ⟨-, m, -, -, e5⟩ := tagIdx_of_fresh W2 FF
        exact ⟨m, by rw [e5]⟩
      · exact R.congr W W2 (p := q) hd (hk2 q hq) (fun y hy => by rw [C.tag, hg1 y (W.kids_lt q y hy)]) (by rw [N2 d hdc, N d hdl])

/-- the loop and the rest of the local items -/
theorem loadLoop_spec {load : Heap → Id → Res Bool} {p s : Id} : ∀ (cs : List (LKey × Id)) {h : Heap} (E : List (LEntry Id)) (ks : List LKey), LoopPre h p s cs E →
    ∃ h' E' nid, loadLoop load p s h (cs.map (·.2)) E ks = (h', .ok (E', ks ++ cs.map (·.1))) ∧
      LoadSpec h ((E'.filterMap (·.2)).foldl (fun h z => appendItem h p z) h') p (E.filterMap (·.2)) nid cs
        (mergeLoop (fun k => decide (k ∈ (numbered h s).map Prod.fst)) (cs.map (·.1)) E) ∧
      ∀ pre e post, cs = pre ++ e :: post → nid e.1 = (loadLoop load p s h (pre.map (·.2)) E ks).1.next := by
  intro cs
  induction cs with
  | nil =>
    intro h E ks P
    refine ⟨h, E, fun _ => 0, by simp [loadLoop], ?_, fun pre e post hh => by simp at hh⟩
    rw [foldAppend_eq p 0]
    simp only [List.map_nil, mergeLoop]
    generalize hos : (E.filterMap fun e => e.2.map fun z => (LOut.old z e.1 false : LOut Id)) = os
    have hids : os.map (outId 0) = E.filterMap (·.2) := by
      rw [← hos, List.map_filterMap]
      congr 1
      funext e
      cases e.2 <;> rfl
    have hnc : ∀ i k, LOut.old i k true ∉ os := by
      intro i k hm
      rw [← hos] at hm
      obtain ⟨e, _, h2⟩ := List.mem_filterMap.1 hm
      cases h3 : e.2 <;> simp [h3] at h2
    have Q := putAll_spec (p := p) (x := 0) os P.wf P.forest P.lt (by rw [hids]; exact P.nodup) (fun z hz => by
      rw [hids] at hz
      obtain ⟨a, b, c, _⟩ := P.stray z hz
      exact ⟨a, b, c⟩)
    refine ⟨Q.wf, Q.forest, Nat.le_of_eq Q.next.symm, fun i _ => Q.tag i, fun i _ => Q.value i, fun i _ => Q.flags i, fun i _ => Q.kids_o i, ?_, ?_, fun i k hk => absurd hk (hnc i k), ?_,
      fun e he => by simp at he, by simp, fun e he => by simp at he, ?_⟩
    · rw [Q.kids_p]
      congr 1
    · intro i _ _
      rw [Q.link, if_neg fun ha => by obtain ⟨k, hk⟩ := any_covers.1 ha; exact hnc i k hk]
    · intro i _ hi
      rw [Heap.par, Q.parent i (by rw [hids]; exact hi), Heap.par]
    · intro q d _ e hd hX' R
      exact R.congr P.wf Q.wf hd (Q.kids_o q e) (fun y _ => Q.tag y) (by rw [Q.parent d (by rw [hids]; exact hX')])
  | cons e cs ih =>
    obtain ⟨key, c⟩ := e
    intro h E ks P
    obtain ⟨h3, e3, P3, num, tr, A⟩ := loadStep (load := load) P
    obtain ⟨h', E', nid, e', B, I⟩ := ih (h := h3) (stepRest (fun k => decide (k ∈ (numbered h s).map Prod.fst)) key E) (ks ++ [key]) P3
    rw [num] at B
    obtain ⟨s1, s2, s3, s4⟩ := stepOuts_kept (fun k => decide (k ∈ (numbered h s).map Prod.fst)) key E P.nodup
    have hst := stepOuts_stands (fun k => decide (k ∈ (numbered h s).map Prod.fst)) key E
    have oldX : ∀ z k b, LOut.old z k b ∈ stepOuts (fun k => decide (k ∈ (numbered h s).map Prod.fst)) key E → z ∈ E.filterMap (·.2) :=
      fun z k b ho => s2 z (List.mem_filterMap.2 ⟨_, ho, rfl⟩)
    refine ⟨h', E', fun k => if k = key then h.next else nid k, ?_, ?_, fun pre e post hh => ?_⟩
    · rw [List.map_cons, e3, e']; simp
    rotate_left
    · cases pre with
      | nil =>
        simp only [List.nil_append, List.cons.injEq] at hh
        simp [← hh.1, loadLoop]
      | cons a pre =>
        simp only [List.cons_append, List.cons.injEq] at hh
        have hne : e.1 ≠ key := fun he => by
          have := (List.nodup_cons.1 P.keys).1
          exact this (List.mem_map.2 ⟨e, by rw [hh.2]; simp, he⟩)
        rw [← hh.1, List.map_cons, e3]
        simp only [if_neg hne]
        exact I pre e post hh.2
    · rw [List.map_cons, mergeLoop_step]
      refine LoadSpec.trans P.lt A B (fun z hz => s3.subset hz) (fun z hz => (P.stray z hz).1) (fun o ho k hk => stands_unique hst ho hk)
        (fun o ho k hk => mergeLoop_standsMem _ _ _ ho hk) (List.nodup_cons.1 P.keys).1 oldX
        (fun z k b ho => s3.subset (mergeLoop_old _ _ _ (s3.nodup P.nodup) z k b ho)) (fun z k k' h1 h2 => ?_) tr
      exact s4 z (List.mem_filterMap.2 ⟨_, h1, rfl⟩) (mergeLoop_old _ _ _ (s3.nodup P.nodup) z k' true h2)

end ITree
